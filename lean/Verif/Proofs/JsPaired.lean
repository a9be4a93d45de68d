import Verif.Proofs.Paired
import Verif.Proofs.JsWithin
/-! # Which contents go with which sources in emitted maps -/

namespace WS
open Spec

/-! ## Larger relations -/

section
variable {P Q : Int → Int → Prop} (l : ∀ s c, P s c → Q s c)
include l

theorem Cover.mono {ss cs : List Int} (h : Cover P ss cs) : Cover Q ss cs :=
  ⟨h.enough, fun p hp => l _ _ (h.pairs p hp)⟩

theorem Generator.Cov.mono {g : Generator} (h : g.Cov P) : g.Cov Q :=
  ⟨fun p hp => l _ _ (h.pairs p hp), h.listed⟩

theorem SmHolder.Cov.mono {h : SmHolder} (H : h.Cov P) : h.Cov Q :=
  ⟨fun d hd => (H.data d hd).mono l, fun g hg => (H.gen g hg).mono l⟩

theorem Obj.Cov.mono {L : Prop} {o : Obj} (h : o.Cov P L) : o.Cov Q L := by
  cases o with
  | original => exact l _ _ h
  | l2l => exact l _ _ h
  | sms s =>
    have h : s.Cov P L := h
    exact (⟨fun x => l _ _ (h.own x), h.map.mono l, fun x hx => l _ _ (h.original x hx),
      fun i hi => (h.inner i hi).mono l⟩ : s.Cov Q L)
  | replace => exact h
  | raw | prefixed | concat => trivial

end

/-! ## The relation given by a string table -/

/-- The indices stand for a source and a content that belong together. -/
def Belongs (U : JVal → JVal → Prop) (t : StrTable JVal) (s c : Int) : Prop :=
  0 ≤ s ∧ 0 ≤ c ∧ ∃ a b, t.array[s.toNat]? = some a ∧ t.array[c.toNat]? = some b ∧ U a b

variable {U : JVal → JVal → Prop} {L : Prop}

theorem Belongs.grow {t t' : StrTable JVal} (g : ∃ r, t'.array = t.array ++ r) (s c : Int)
    (h : Belongs U t s c) : Belongs U t' s c := by
  obtain ⟨r, hr⟩ := g
  obtain ⟨h0, h1, a, b, ha, hb, hu⟩ := h
  exact ⟨h0, h1, a, b, by rw [hr]; exact getElem?_append_some ha,
    by rw [hr]; exact getElem?_append_some hb, hu⟩

theorem Belongs.of {t : StrTable JVal} {a b : JVal} {s c : Int} (h : U a b)
    (hs : Stands t (· = a) s) (hc : Stands t (· = b) c) : Belongs U t s c := by
  obtain ⟨h0, x, hx, rfl⟩ := hs
  obtain ⟨h1, y, hy, rfl⟩ := hc
  exact ⟨h0, h1, x, y, hx, hy, h⟩

/-- The values of indices, `null` for a negative one. -/
def StrTable.values (t : StrTable JVal) (ids : List Int) : Option (List JVal) :=
  (t.resolve ids).map (·.map Option.join)

theorem StrTable.values_mono {t t' : StrTable JVal} (g : ∃ r, t'.array = t.array ++ r) {ids : List Int}
    {l : List JVal} (h : t.values ids = some l) : t'.values ids = some l := by
  obtain ⟨vs, h1, rfl⟩ := Option.map_eq_some_iff.1 h
  simp [StrTable.values, StrTable.resolve_mono g h1]

theorem World.resolve_values {w : World} {ids : List Int} {l : List JVal} :
    w.resolve ids = .ok l ↔ w.strs.values ids = some l := by
  simp only [World.resolve, StrTable.values]
  cases w.strs.resolve ids <;> simp

theorem StrTable.values_cons {t : StrTable JVal} {i : Int} {ids : List Int} {v : JVal} {l : List JVal}
    (h0 : 0 ≤ i) (hv : t.array[i.toNat]? = some v) (h : t.values ids = some l) :
    t.values (i :: ids) = some (v :: l) := by
  obtain ⟨vs, h1, rfl⟩ := Option.map_eq_some_iff.1 h
  have : t.at i = some (some v) := by rw [StrTable.at, if_neg (by omega), hv]
  simp [StrTable.values, StrTable.resolve, this, h1]

/-- Lists that line up as indices line up as values. -/
theorem values_cover {t : StrTable JVal} : ∀ {ss cs : List Int}, ss.length = cs.length →
    (∀ p ∈ ss.zip cs, Belongs U t p.1 p.2) →
    ∃ ls lc, t.values ss = some ls ∧ t.values cs = some lc ∧ ls.length = lc.length ∧
      ∀ p ∈ ls.zip lc, U p.1 p.2
  | [], [], _, _ => ⟨[], [], rfl, rfl, rfl, by simp⟩
  | [], _ :: _, h, _ => by simp at h
  | _ :: _, [], h, _ => by simp at h
  | s :: ss, c :: cs, h, hp => by
    obtain ⟨ls, lc, h1, h2, h3, h4⟩ := values_cover (ss := ss) (cs := cs) (by simpa using h)
      (fun p hm => hp p (List.mem_cons_of_mem _ hm))
    obtain ⟨h0, h0', a, b, ha, hb, hu⟩ := hp (s, c) (List.mem_cons_self ..)
    refine ⟨a :: ls, b :: lc, StrTable.values_cons h0 ha h1, StrTable.values_cons h0' hb h2,
      by simpa using h3, fun p hm => ?_⟩
    rcases List.mem_cons.1 hm with rfl | hm
    · exact hu
    · exact h4 p hm

/-- A list as it is read: an empty one reads as absent. -/
def shown (l : List JVal) : Option (List JVal) :=
  match l with
  | [] => none
  | v :: vs => some (v :: vs)

/-- What an emitted map contains. -/
structure Emitted.Holds (U : JVal → JVal → Prop) (t : StrTable JVal) (e : Emitted)
    (ls lc : List JVal) : Prop where
  len : ls.length = lc.length
  pairs : ∀ p ∈ ls.zip lc, U p.1 p.2
  sources : ∀ l, e.sources = some l → l = ls
  contents : ∀ c, e.contents = some c → c = shown lc
  gen : ∀ wm g, e.wasm = some wm → wm.gen = some g → g.Cov (Belongs U t)
  map : ∀ wm m, e.wasm = some wm → wm.map = some m → Cover (Belongs U t) m.sources m.sourcesContent
  yields : ∀ wm m wm', e.wasm = some wm → wm.getMap = .ok (m, wm') →
    t.values m.sources = some ls ∧ t.values m.sourcesContent = some lc

structure World.Paired (U : JVal → JVal → Prop) (L : Prop) (w : World) : Prop where
  strs : w.strs.Ok
  heap : Heap.All (Obj.Cov (Belongs U w.strs) L) w.heap
  maps : ¬ L → ∀ e ∈ w.maps, ∃ ls lc, e.Holds U w.strs ls lc

theorem Emitted.Holds.mono {t t' : StrTable JVal} (g : ∃ r, t'.array = t.array ++ r) {e : Emitted}
    {ls lc : List JVal} (h : e.Holds U t ls lc) : e.Holds U t' ls lc :=
  ⟨h.len, h.pairs, h.sources, h.contents, fun wm m a b => (h.gen wm m a b).mono (Belongs.grow g),
    fun wm m a b => (h.map wm m a b).mono (Belongs.grow g), fun wm m wm' a b =>
      ⟨StrTable.values_mono g (h.yields wm m wm' a b).1,
       StrTable.values_mono g (h.yields wm m wm' a b).2⟩⟩

theorem World.Paired.grow {w w' : World} (W : w.Paired U L) (ok : w'.strs.Ok)
    (g : ∃ r, w'.strs.array = w.strs.array ++ r) (h : w'.heap = w.heap) (m : w'.maps = w.maps) :
    w'.Paired U L := by
  refine ⟨ok, by rw [h]; exact fun i o e => (W.heap i o e).mono (Belongs.grow g), fun l e he => ?_⟩
  obtain ⟨ls, lc, hh⟩ := W.maps l e (m ▸ he)
  exact ⟨ls, lc, hh.mono g⟩

/-! ## The string table -/

theorem World.Paired.intern {w : World} (W : w.Paired U L) (v : JVal) :
    (w.intern v).2.Paired U L ∧ Stands (w.intern v).2.strs (· = v) (w.intern v).1 :=
  ⟨W.grow (W.strs.add v) (StrTable.add_grows _ _) rfl rfl,
    ⟨by simp [World.intern], v, by simpa [World.intern] using StrTable.add_at W.strs v, rfl⟩⟩

theorem World.Paired.internNew {w : World} (W : w.Paired U L) (v : JVal) :
    (w.internNew v).2.Paired U L ∧ Stands (w.internNew v).2.strs (· = v) (w.internNew v).1 :=
  ⟨W.grow (W.strs.addUnchecked v) ⟨[v], rfl⟩ rfl rfl,
    ⟨by simp [World.internNew], v, by simp [World.internNew, StrTable.addUnchecked], rfl⟩⟩

/-- The indices stand for the values, one by one. -/
def StandAll (t : StrTable JVal) (vs : List JVal) (ids : List Int) : Prop :=
  vs.length = ids.length ∧ ∀ p ∈ vs.zip ids, Stands t (· = p.1) p.2

theorem StandAll.grow {t t' : StrTable JVal} (g : ∃ r, t'.array = t.array ++ r) {vs : List JVal}
    {ids : List Int} (h : StandAll t vs ids) : StandAll t' vs ids :=
  ⟨h.1, fun p hp => (h.2 p hp).grow g⟩

theorem World.Paired.internAll : ∀ {vs : List JVal} {w : World}, w.Paired U L →
    (w.internAll vs).2.Paired U L ∧ StandAll (w.internAll vs).2.strs vs (w.internAll vs).1
  | [], w, W => ⟨W, rfl, by simp⟩
  | v :: vs, w, W => by
    have h1 := W.intern v
    have h2 := World.Paired.internAll (vs := vs) h1.1
    refine ⟨h2.1, by simpa [World.internAll] using h2.2.1, fun p hp => ?_⟩
    rcases List.mem_cons.1 hp with rfl | hp
    · exact h1.2.grow (World.internAll_same _ vs).strs
    · exact h2.2.2 p hp

theorem World.Paired.internAllNew : ∀ {vs : List JVal} {w : World}, w.Paired U L →
    (w.internAllNew vs).2.Paired U L ∧ StandAll (w.internAllNew vs).2.strs vs (w.internAllNew vs).1
  | [], w, W => ⟨W, rfl, by simp⟩
  | v :: vs, w, W => by
    have h1 := W.internNew v
    have h2 := World.Paired.internAllNew (vs := vs) h1.1
    refine ⟨h2.1, by simpa [World.internAllNew] using h2.2.1, fun p hp => ?_⟩
    rcases List.mem_cons.1 hp with rfl | hp
    · exact h1.2.grow (World.internAllNew_same _ vs).strs
    · exact h2.2.2 p hp

theorem standAll_cover {t : StrTable JVal} : ∀ {ss cs : List JVal} {is js : List Int},
    StandAll t ss is → StandAll t cs js → Cover U ss cs → Cover (Belongs U t) is js
  | [], cs, [], js, _, _, _ => ⟨by simp, by simp⟩
  | [], _, _ :: _, _, h, _, _ => by simp [StandAll] at h
  | _ :: _, _, [], _, h, _, _ => by simp [StandAll] at h
  | _ :: _, [], _ :: _, _, _, _, h => by have := h.enough; simp at this
  | _ :: _, _ :: _, _ :: _, [], _, h, _ => by simp [StandAll] at h
  | s :: ss, c :: cs, i :: is, j :: js, h1, h2, h => by
    have ih := standAll_cover (ss := ss) (cs := cs) (is := is) (js := js)
      ⟨by simpa using h1.1, fun p hp => h1.2 p (List.mem_cons_of_mem _ hp)⟩
      ⟨by simpa using h2.1, fun p hp => h2.2 p (List.mem_cons_of_mem _ hp)⟩
      ⟨by simpa using h.enough, fun p hp => h.pairs p (List.mem_cons_of_mem _ hp)⟩
    refine ⟨by simpa using ih.enough, fun p hp => ?_⟩
    rcases List.mem_cons.1 hp with rfl | hp
    · exact Belongs.of (h.pairs (s, c) (List.mem_cons_self ..)) (h1.2 (s, i) (List.mem_cons_self ..))
        (h2.2 (c, j) (List.mem_cons_self ..))
    · exact ih.pairs p hp

theorem World.Paired.giveData {w : World} (W : w.Paired U L) {ss cs ns : List JVal} (m : Str)
    (h : Cover U ss cs) :
    (w.giveData ss cs ns m).2.Paired U L ∧
    (w.giveData ss cs ns m).1.Cov (Belongs U (w.giveData ss cs ns m).2.strs) := by
  have h1 := World.Paired.internAll (vs := ss) W
  have h2 := World.Paired.internAllNew (vs := cs) h1.1
  have h3 := World.Paired.internAll (vs := ns) h2.1
  have g3 := (World.internAll_same ((w.internAll ss).2.internAllNew cs).2 ns).strs
  refine ⟨h3.1, fun d hd => ?_, fun g hg => (by cases hg)⟩
  cases hd
  exact standAll_cover ((h1.2.grow (World.internAllNew_same _ cs).strs).grow g3) (h2.2.grow g3) h

/-! ## Emitted maps -/

/-- If there is a result, it has the property. -/
def Post {α : Type} (P : α → Prop) : Except JErr α → Prop
  | .ok a => P a
  | .error _ => True

theorem Post.bind {α β : Type} {P : α → Prop} {Q : β → Prop} {x : Except JErr α}
    {f : α → Except JErr β} (h : Post P x) (hf : ∀ a, P a → Post Q (f a)) : Post Q (x.bind f) := by
  cases x with
  | error e => trivial
  | ok a => exact hf a h

theorem Post.map {α β : Type} {P : α → Prop} {Q : β → Prop} {x : Except JErr α} {f : α → β}
    (h : Post P x) (hf : ∀ a, P a → Q (f a)) : Post Q (x.map f) := by
  cases x with
  | error e => trivial
  | ok a => exact hf a h

theorem Post.with {α : Type} {P Q : α → Prop} {x : Except JErr α} (h : Post P x)
    (hq : ∀ a, x = .ok a → Q a) : Post (fun a => P a ∧ Q a) x := by
  cases x with
  | error e => trivial
  | ok a => exact ⟨h, hq a rfl⟩

theorem Post.any {α : Type} (x : Except JErr α) : Post (fun _ => True) x := by
  cases x <;> trivial

theorem Emitted.Holds.data {t : StrTable JVal} {e : Emitted} {ls lc : List JVal}
    (h : e.Holds U t ls lc) :
    Post (fun p => p.2.Holds U t ls lc ∧ t.values p.1.sources = some ls ∧
      t.values p.1.sourcesContent = some lc) e.data := by
  cases ed : e.data with
  | error _ => trivial
  | ok p =>
    obtain ⟨m, e'⟩ := p
    obtain ⟨wm, wm', h1, h2, rfl⟩ := Emitted.data_fields ed
    have hy := h.yields wm m wm' h1 h2
    refine ⟨⟨h.len, h.pairs, h.sources, h.contents, ?_, ?_, ?_⟩, hy.1, hy.2⟩
    · intro x g a b
      cases a
      simp only [WasmMap.getMap] at h2
      split at h2
      · cases h2; exact h.gen _ g h1 b
      · split at h2
        · cases h2
        · rename_i g0 eg
          split at h2
          · cases h2
          · cases h2; cases b
            exact ((h.gen wm g0 h1 eg).toSourceMap ‹_›).2.2
    · intro x g a b
      cases a
      simp only [WasmMap.getMap] at h2
      split at h2
      · cases h2; exact h.map _ g h1 b
      · split at h2
        · cases h2
        · rename_i g0 eg
          split at h2
          · cases h2
          · cases h2; cases b
            exact ((h.gen wm g0 h1 eg).toSourceMap ‹_›).2.1
    · intro x m' x' a b
      cases a
      rw [(WasmMap.getMap_again h2).1] at b
      cases b
      exact hy

theorem Emitted.Holds.getSources {w : World} {e : Emitted} {ls lc : List JVal}
    (h : e.Holds U w.strs ls lc) :
    Post (fun p => p.1 = ls ∧ p.2.Holds U w.strs ls lc) (e.getSources w) := by
  simp only [Emitted.getSources]
  split
  · exact ⟨h.sources _ ‹_›, h⟩
  · refine h.data.bind fun p hp => ?_
    rw [World.resolve_values.2 hp.2.1]
    exact ⟨rfl, hp.1.len, hp.1.pairs, fun l e => (by cases e; rfl), hp.1.contents, hp.1.gen, hp.1.map,
      hp.1.yields⟩

theorem show_shown (lc : List JVal) :
    (match some lc with | some (v :: vs) => some (v :: vs) | _ => none : Option (List JVal)) =
      shown lc := by
  cases lc <;> rfl

theorem Emitted.Holds.getContents {w : World} {e : Emitted} {ls lc : List JVal}
    (h : e.Holds U w.strs ls lc) :
    Post (fun p => p.1 = shown lc ∧ p.2.Holds U w.strs ls lc) (e.getContents w) := by
  simp only [Emitted.getContents]
  split
  · rename_i c ec
    refine ⟨?_, h⟩
    dsimp only
    cases h.contents c ec
    cases lc <;> rfl
  · refine h.data.bind fun p hp => ?_
    rw [World.resolve_values.2 hp.2.2]
    refine ⟨show_shown lc, hp.1.len, hp.1.pairs, hp.1.sources, fun c e => ?_, hp.1.gen, hp.1.map,
      hp.1.yields⟩
    dsimp only at e
    rw [← show_shown]
    cases e; rfl

theorem Emitted.Holds.getMappings {t : StrTable JVal} {e : Emitted} {ls lc : List JVal}
    (h : e.Holds U t ls lc) : Post (fun p => p.2.Holds U t ls lc) e.getMappings := by
  simp only [Emitted.getMappings]
  split
  · exact h
  · exact h.data.map fun p hp => ⟨hp.1.len, hp.1.pairs, hp.1.sources, hp.1.contents, hp.1.gen, hp.1.map,
      hp.1.yields⟩

theorem Emitted.Holds.getNames {w : World} {e : Emitted} {ls lc : List JVal}
    (h : e.Holds U w.strs ls lc) : Post (fun p => p.2.Holds U w.strs ls lc) (e.getNames w) := by
  simp only [Emitted.getNames]
  split
  · split
    · exact h
    · exact h.data.bind fun p hp => (Post.any _).map fun l _ => ⟨hp.1.len, hp.1.pairs, hp.1.sources,
        hp.1.contents, hp.1.gen, hp.1.map, hp.1.yields⟩
  · exact h

theorem Emitted.Holds.getSource {t : StrTable JVal} {e : Emitted} {ls lc : List JVal}
    (h : e.Holds U t ls lc) : Post (fun p => p.2.Holds U t ls lc) e.getSource := by
  simp only [Emitted.getSource]
  split
  · exact h
  · split
    · trivial
    · exact ⟨h.len, h.pairs, h.sources, h.contents, h.gen, h.map, h.yields⟩

theorem Emitted.Holds.get {w : World} {e : Emitted} {ls lc : List JVal}
    (h : e.Holds U w.strs ls lc) (f : JField) :
    Post (fun p => p.2.Holds U w.strs ls lc) (e.get w f) := by
  cases f with
  | source => exact h.getSource.map fun p hp => hp
  | sources => exact h.getSources.map fun p hp => hp.2
  | contents => exact h.getContents.map fun p hp => hp.2
  | mappings => exact h.getMappings.map fun p hp => hp
  | names => exact h.getNames.map fun p hp => hp

theorem Emitted.Holds.set {t : StrTable JVal} {e : Emitted} {ls lc : List JVal}
    (h : e.Holds U t ls lc) {a : JAssign} (h1 : a.field ≠ .sources) (h2 : a.field ≠ .contents) :
    (e.set a).Holds U t ls lc := by
  cases a with
  | source s => exact ⟨h.len, h.pairs, h.sources, h.contents, h.gen, h.map, h.yields⟩
  | sources l => exact absurd rfl h1
  | contents l => exact absurd rfl h2
  | mappings s => exact ⟨h.len, h.pairs, h.sources, h.contents, h.gen, h.map, h.yields⟩
  | names l =>
    simp only [Emitted.set]
    split <;> exact ⟨h.len, h.pairs, h.sources, h.contents, h.gen, h.map, h.yields⟩

theorem World.Paired.setMap {w : World} (W : w.Paired U L) {k : Nat} {e : Emitted}
    (h : ¬ L → ∃ ls lc, e.Holds U w.strs ls lc) :
    ({ w with maps := w.maps.set k e } : World).Paired U L :=
  ⟨W.strs, W.heap, fun l x hx => (List.mem_or_eq_of_mem_set hx).elim (W.maps l x) (fun e => e ▸ h l)⟩

theorem World.Paired.pushMap {w : World} (W : w.Paired U L) {e : Emitted}
    (h : ¬ L → ∃ ls lc, e.Holds U w.strs ls lc) :
    ({ w with maps := w.maps ++ [e] } : World).Paired U L :=
  ⟨W.strs, W.heap, fun l x hx => by
    rcases List.mem_append.1 hx with hx | hx
    · exact W.maps l x hx
    · cases List.mem_singleton.1 hx; exact h l⟩

theorem Emitted.holds_node {t : StrTable JVal} {g : Generator} (h : g.Cov (Belongs U t)) (s : Str)
    (b : Bool) : ∃ ls lc, (Emitted.new ⟨s, none, some g⟩ b).Holds U t ls lc := by
  have key : ∃ ls lc, ls.length = lc.length ∧ (∀ p ∈ ls.zip lc, U p.1 p.2) ∧
      ∀ m g', g.toSourceMap = .ok (m, g') →
        t.values m.sources = some ls ∧ t.values m.sourcesContent = some lc := by
    cases e : g.toSourceMap with
    | error _ => exact ⟨[], [], rfl, by simp, fun _ _ h => by cases h⟩
    | ok p =>
      obtain ⟨m, g'⟩ := p
      have := h.toSourceMap e
      obtain ⟨ls, lc, h1, h2, h3, h4⟩ := values_cover this.1 this.2.1.pairs
      exact ⟨ls, lc, h3, h4, fun _ _ h => by cases h; exact ⟨h1, h2⟩⟩
  obtain ⟨ls, lc, h1, h2, h3⟩ := key
  refine ⟨ls, lc, h1, h2, fun l e => (by cases e), fun l e => (by cases e), ?_, ?_, ?_⟩
  · intro wm g' a b; cases a; cases b; exact h
  · intro wm g' a b; cases a; cases b
  · intro wm m wm' a b
    cases a
    simp only [WasmMap.getMap] at b
    split at b
    · cases b
    · cases b; exact h3 _ _ ‹_›

theorem Emitted.holds_list {t : StrTable JVal} {m : SourceMap}
    (hl : m.sources.length = m.sourcesContent.length)
    (h : Cover (Belongs U t) m.sources m.sourcesContent) (s : Str) (b : Bool) :
    ∃ ls lc, (Emitted.new ⟨s, some m, none⟩ b).Holds U t ls lc := by
  obtain ⟨ls, lc, h1, h2, h3, h4⟩ := values_cover hl h.pairs
  refine ⟨ls, lc, h3, h4, fun l e => (by cases e), fun l e => (by cases e), ?_, ?_, ?_⟩
  · intro wm g' a b; cases a; cases b
  · intro wm g' a b; cases a; cases b; exact h
  · intro wm m wm' a b
    cases a
    simp only [WasmMap.getMap] at b
    cases b
    exact ⟨h1, h2⟩

/-! ## Statements -/

theorem World.Paired.call {w : World} (W : w.Paired U L) {op : Op} (ho : op.Cov (Belongs U w.strs) L) :
    Post (fun p => p.2.Paired U L ∧ p.1.Cov (Belongs U w.strs) L ∧ p.2.strs = w.strs ∧
      p.2.maps = w.maps) (w.call op) := by
  simp only [World.call]
  cases e : op.run w.heap with
  | error p => trivial
  | ok p =>
    obtain ⟨a, h⟩ := p
    have := Op.run_cov W.heap ho e
    exact ⟨⟨W.strs, this.2, W.maps⟩, this.1, rfl, rfl⟩

theorem World.Paired.create {w : World} (W : w.Paired U L) {op : Op}
    (ho : op.Cov (Belongs U w.strs) L) (k : JKind) :
    Post (fun w' => w'.Paired U L) (w.create op k) :=
  (W.call ho).map fun _ hp => ⟨hp.1.strs, hp.1.heap, hp.1.maps⟩

theorem World.Paired.addItem {w : World} (W : w.Paired U L) (j : Nat) (i : JSrc) :
    Post (fun w' => w'.Paired U L) (w.addItem j i) := by
  simp only [World.addItem]
  split
  · exact (Post.any _).bind fun s _ => (W.call (op := .add _ s) trivial).map fun _ hp =>
      ⟨hp.1.strs, hp.1.heap, hp.1.maps⟩
  · trivial

theorem World.Paired.addItems {j : Nat} : ∀ {is : List JSrc} {w : World}, w.Paired U L →
    Post (fun w' => w'.Paired U L) (w.addItems j is)
  | [], _, W => W
  | i :: _, _, W => (W.addItem j i).bind fun _ h => World.Paired.addItems h

theorem World.Paired.readSource {w : World} (W : w.Paired U L) (j : Nat) :
    Post (fun p => p.2.Paired U L) (w.readSource j) := by
  simp only [World.readSource]
  split
  · trivial
  · split
    · exact W
    · refine (W.call (op := .source _) trivial).bind fun p hp => ?_
      split
      · exact hp.1
      · trivial

theorem World.Paired.readSize {w : World} (W : w.Paired U L) (j : Nat) :
    Post (fun p => p.2.Paired U L) (w.readSize j) := by
  simp only [World.readSize]
  split
  · trivial
  · split
    · exact W
    · refine (W.call (op := .size _) trivial).bind fun p hp => ?_
      split
      · exact hp.1
      · trivial

theorem World.Paired.hashEach {f : World → Nat → Except JErr (List Str × World)}
    (hf : ∀ w j, w.Paired U L → Post (fun p => p.2.Paired U L) (f w j)) :
    ∀ {cs : List JSrc} {w : World}, w.Paired U L →
    Post (fun p => p.2.Paired U L) (World.hashEach f w cs)
  | [], _, W => W
  | .str s :: cs, w, W => by
    simp only [World.hashEach]
    exact (World.Paired.hashEach hf W).map fun _ h => h
  | .obj j :: cs, w, W => by
    simp only [World.hashEach]
    exact (hf w j W).bind fun p hp => (World.Paired.hashEach hf hp).map fun _ h => h

theorem World.Paired.hashObj (n : Nat) : ∀ (w : World) (j : Nat), w.Paired U L →
    Post (fun p => p.2.Paired U L) (World.hashObj n w j) := by
  induction n with
  | zero => intro w j _; trivial
  | succ n ih =>
    intro w j W
    simp only [World.hashObj]
    split
    · trivial
    · split
      · exact W
      · exact W
      · exact W
      · exact W
      · exact (World.Paired.hashEach ih W).map fun _ h => h
      · exact (W.readSource j).map fun _ h => h
      · exact World.Paired.hashEach ih W

theorem World.Paired.emit {w : World} (W : w.Paired U L) (j : Nat) {c : Bool} (m : Bool)
    (hc : ¬ L → c = true) : Post (fun p => p.2.Paired U L) (w.emit j c m) := by
  simp only [World.emit]
  split
  · trivial
  · split
    · exact W
    · split
      · refine (W.call (op := .node _ _ _) trivial).bind fun p hp => ?_
        obtain ⟨a, w'⟩ := p
        obtain ⟨W', ha, hs, hm⟩ := hp
        dsimp only at ha hs hm W' ⊢
        split
        · rename_i n
          have := W'.pushMap (e := Emitted.new ⟨(n.toStringWithGenerator none none).1, none,
            some (n.toStringWithGenerator none none).2⟩ true)
            (fun l => Emitted.holds_node (by rw [hs]; exact toStringWithGenerator_cov (ha l) none none) _ _)
          rw [hm] at this
          exact this
        · trivial
      · rename_i hcf
        refine (W.call (op := .listMap _ _ _) trivial).bind fun p hp => ?_
        obtain ⟨a, w'⟩ := p
        obtain ⟨W', ha, hs, hm⟩ := hp
        dsimp only at ha hs hm W' ⊢
        split
        · rename_i n
          have := W'.pushMap (e := Emitted.new ⟨(slmToStringWithSourceMap n none).source,
            some (slmToStringWithSourceMap n none).map, none⟩ false)
            (fun l => absurd (hc l) hcf)
          rw [hm] at this
          exact this
        · trivial

theorem World.Paired.newRaw {w : World} (W : w.Paired U L) (v : Str) :
    Post (fun w' => w'.Paired U L) (w.newRaw v) := by
  simp only [World.newRaw]
  split
  · exact ⟨W.strs, W.heap, W.maps⟩
  · exact (W.create (op := .newRaw v) trivial _).map fun _ h => ⟨h.strs, h.heap, h.maps⟩

theorem World.Paired.newOriginal {w : World} (W : w.Paired U L) {v n : Str}
    (h : U (some n) (some v)) : Post (fun w' => w'.Paired U L) (w.newOriginal v n) := by
  have h1 := W.internNew (some v)
  have h2 := h1.1.intern (some n)
  have ho : (Op.newOriginal v ((w.internNew (some v)).2.intern (some n)).1
      (w.internNew (some v)).1).Cov
      (Belongs U ((w.internNew (some v)).2.intern (some n)).2.strs) L :=
    Belongs.of h h2.2 (h1.2.grow (World.intern_same _ _).strs)
  simp only [World.newOriginal]
  split
  · split
    · exact ⟨h2.1.strs, h2.1.heap, h2.1.maps⟩
    · exact (h2.1.create ho _).map fun _ h => ⟨h.strs, h.heap, h.maps⟩
  · exact h2.1.create ho _

theorem World.Paired.newL2l {w : World} (W : w.Paired U L) {v n o : Str}
    (h : U (some n) (some o)) : Post (fun w' => w'.Paired U L) (w.newL2l v n o) := by
  have h1 := W.intern (some n)
  have h2 := h1.1.internNew (some o)
  exact h2.1.create (op := .newL2l v _ _)
    (Belongs.of h (h1.2.grow (World.internNew_same _ _).strs) h2.2) _

/-- What is required of a map that is given. -/
def MapArg.Paired (U : JVal → JVal → Prop) (L : Prop) : MapArg → Prop
  | .plain ss cs _ _ => Cover U ss cs
  | .emitted _ => ¬ L

theorem World.Paired.give {w : World} (W : w.Paired U L) {a : MapArg} (ha : a.Paired U L) :
    Post (fun p => p.2.Paired U L ∧ p.1.Cov (Belongs U p.2.strs)) (w.give a) := by
  cases a with
  | plain ss cs ns m => exact W.giveData m ha
  | emitted k =>
    have ha : ¬ L := ha
    simp only [World.give]
    split
    · trivial
    · rename_i e he
      obtain ⟨ls, lc, hw⟩ := W.maps ha e (List.mem_of_getElem? he)
      split
      · rename_i wm hwm
        have hwm : e.wasm = some wm := by
          split at hwm
          · cases hwm
          · exact hwm
        refine ⟨W.setMap fun _ => ⟨ls, lc, hw.len, hw.pairs, hw.sources, hw.contents, fun _ _ h => (by cases h),
          fun _ _ h => (by cases h), fun _ _ _ h => (by cases h)⟩, fun d hd => ?_, ?_⟩
        · obtain ⟨m, hm, rfl⟩ := Option.map_eq_some_iff.1 hd
          exact hw.map wm m hwm hm
        · exact fun g hg => hw.gen wm g hwm hg
      · refine hw.getSources.bind fun a ha => ha.2.getContents.bind fun b hb =>
          hb.2.getMappings.bind fun c hc => hc.getNames.map fun d hd => ?_
        refine (W.setMap fun _ => ⟨ls, lc, hd⟩).giveData c.1 ?_
        rw [ha.1, hb.1]
        have : (shown lc).getD [] = lc := by cases lc <;> rfl
        rw [this]
        exact ⟨Nat.le_of_eq hw.len, hw.pairs⟩

theorem World.Paired.giveInner {w : World} (W : w.Paired U L) {a : Option MapArg}
    (ha : ∀ x, a = some x → x.Paired U L) :
    Post (fun p => p.2.Paired U L ∧ ∀ i, p.1 = some i → i.Cov (Belongs U p.2.strs))
      (w.giveInner a) := by
  cases a with
  | none => exact ⟨W, fun i h => by cases h⟩
  | some a =>
    simp only [World.giveInner]
    exact (W.give (ha a rfl)).map fun p hp => ⟨hp.1, fun i h => by cases h; exact hp.2⟩

theorem truthy_some {o : Option Str} {s : Str} (h : truthy o = some s) : o = some s := by
  cases o with
  | none => cases h
  | some t =>
    cases t with
    | nil => cases h
    | cons c t => cases h; rfl

/-- What is required of a statement. `L`: the map is to be read line by line. -/
def JOp.Paired (U : JVal → JVal → Prop) (L : Prop) : JOp → Prop
  | .newOriginal v n => U (some n) (some v)
  | .newL2l _ n o => U (some n) (some o)
  | .newSms v n m o i => (L → U (some n) (some v)) ∧ m.Paired U L ∧
      (∀ s, o = some s → U (some n) (some s)) ∧ ∀ x, i = some x → x.Paired U L
  | .newReplace _ => L
  | .sourceAndMap _ c _ => ¬ L → c = true
  | .set _ a => ¬ L → a.field ≠ .sources ∧ a.field ≠ .contents
  | _ => True

theorem World.Paired.newSms {w : World} (W : w.Paired U L) {v n : Str} {m : MapArg} {o : Option Str}
    {i : Option MapArg} (h : (JOp.newSms v n m o i).Paired U L) :
    Post (fun w' => w'.Paired U L) (w.newSms v n m o i) := by
  obtain ⟨hown, hm, hor, hi⟩ := h
  have h1 := W.internNew (some v)
  have h2 := h1.1.intern (some n)
  have kv := h1.2.grow (World.intern_same (w.internNew (some v)).2 (some n)).strs
  have kn := h2.2
  simp only [World.newSms]
  refine ((h2.1.give hm).with (Q := fun p => ∃ r, p.2.strs.array =
    ((w.internNew (some v)).2.intern (some n)).2.strs.array ++ r)
    (fun p e => (World.give_same (h := p.1) (w' := p.2) e).strs)).bind fun p hp => ?_
  obtain ⟨hd, w1⟩ := p
  obtain ⟨⟨W1, hh⟩, g1⟩ := hp
  dsimp only at W1 hh g1 ⊢
  have kv := kv.grow g1
  have kn := kn.grow g1
  have rest : ∀ q : Option Int × World, (q.2.Paired U L ∧ (∀ x, q.1 = some x →
      Belongs U q.2.strs ((w.internNew (some v)).2.intern (some n)).1 x) ∧
      ∃ r, q.2.strs.array = w1.strs.array ++ r) →
      Post (fun w' => w'.Paired U L) ((q.2.giveInner i).bind fun i =>
        i.2.create (.newSms v (w.internNew (some v)).1
          ((w.internNew (some v)).2.intern (some n)).1 hd q.1 i.1) (.sms v (truthy o))) := by
    rintro q ⟨W2, ho, g2⟩
    have kv := kv.grow g2
    have kn := kn.grow g2
    have hh := hh.mono (Belongs.grow g2)
    refine ((W2.giveInner hi).with (Q := fun p => ∃ r, p.2.strs.array = q.2.strs.array ++ r)
      (fun p e => (World.giveInner_same (h := p.1) (w' := p.2) e).strs)).bind fun p hp => ?_
    obtain ⟨ih, w3⟩ := p
    obtain ⟨⟨W3, hi3⟩, g3⟩ := hp
    dsimp only at W3 hi3 g3 ⊢
    exact W3.create (op := .newSms v _ _ hd q.1 ih)
      ⟨fun l => Belongs.of (hown l) (kn.grow g3) (kv.grow g3), hh.mono (Belongs.grow g3),
        fun x hx => Belongs.grow g3 _ _ (ho x hx), hi3⟩ _
  refine rest _ ?_
  split
  · rename_i s hs
    have := W1.internNew (some s)
    refine ⟨this.1, fun x hx => ?_, (World.internNew_same w1 (some s)).strs⟩
    cases hx
    exact Belongs.of (hor s (truthy_some hs)) (kn.grow (World.internNew_same w1 (some s)).strs) this.2
  · exact ⟨W1, fun x hx => (by cases hx), [], by simp⟩

theorem JOp.run_paired {w : World} (W : w.Paired U L) {op : JOp} (h : op.Paired U L) :
    Post (fun p => p.2.Paired U L) (op.run w) := by
  cases op with
  | newRaw v => exact (W.newRaw v).map fun _ h => h
  | newOriginal v n => exact (W.newOriginal h).map fun _ h => h
  | newL2l v n o => exact (W.newL2l h).map fun _ h => h
  | newSms v n m o i => exact (W.newSms h).map fun _ h => h
  | newPrefix p c =>
    exact (Post.any _).bind fun s _ => (W.create (op := .newPrefix p s) trivial _).map fun _ h => h
  | newReplace c =>
    exact (Post.any _).bind fun s _ => (W.create (op := .newReplace s) h _).map fun _ h => h
  | newConcat items =>
    simp only [JOp.run]
    exact (W.create (op := .newConcat) trivial _).bind fun w1 h =>
      (World.Paired.addItems (j := w.objs.length) (is := items) h).map fun _ h => h
  | add j item => exact (W.addItem j item).map fun _ h => h
  | replace j a b t =>
    simp only [JOp.run]
    split
    · exact (W.call (op := .replace _ _ _ _ _ _) trivial).map fun _ h => h.1
    · trivial
  | insert j a t =>
    simp only [JOp.run]
    split
    · exact (W.call (op := .insert _ _ _ _) trivial).map fun _ h => h.1
    · trivial
  | source j => exact (W.readSource j).map fun _ h => h
  | size j => exact (W.readSize j).map fun _ h => h
  | sourceAndMap j c m => exact W.emit j m h
  | hash j => exact (World.Paired.hashObj _ w j W).map fun _ h => h
  | get k f =>
    simp only [JOp.run]
    split
    · trivial
    · rename_i e he
      cases eg : e.get w f with
      | error _ => trivial
      | ok p =>
        refine W.setMap fun l => ?_
        obtain ⟨ls, lc, hh⟩ := W.maps l e (List.mem_of_getElem? he)
        have := hh.get f
        rw [eg] at this
        exact ⟨ls, lc, this⟩
  | set k a =>
    simp only [JOp.run]
    split
    · trivial
    · rename_i e he
      refine W.setMap fun l => ?_
      obtain ⟨ls, lc, hh⟩ := W.maps l e (List.mem_of_getElem? he)
      exact ⟨ls, lc, hh.set (h l).1 (h l).2⟩

theorem World.Paired.runFrom : ∀ {ops : List JOp} {w : World}, w.Paired U L →
    (∀ op ∈ ops, op.Paired U L) → Post (fun w' => w'.Paired U L) (w.runFrom ops)
  | [], _, W, _ => W
  | op :: _, _, W, h => (JOp.run_paired W (h op (List.mem_cons_self ..))).bind fun _ hp =>
      World.Paired.runFrom hp (fun op ho => h op (List.mem_cons_of_mem _ ho))

theorem World.empty_paired : World.empty.Paired U L :=
  ⟨StrTable.empty_ok, fun i o e => (by simp [World.empty] at e), fun _ e he => by simp [World.empty] at he⟩

theorem World.run_paired {ops : List JOp} (h : ∀ op ∈ ops, op.Paired U L) {w : World}
    (e : World.run ops = .ok w) : w.Paired U L := by
  have : Post (fun w => w.Paired U L) (World.run ops) := World.Paired.runFrom World.empty_paired h
  rw [e] at this
  exact this

end WS
