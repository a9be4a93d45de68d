import Verif.Model.JsAll
import Verif.Props.C69
import Verif.Props.C73
/-!
# Programs with all classes: what the statements on list maps and nodes do to the rest of the state
-/

namespace WS
open Spec

variable {U : Pool}

/-! ## Strings of list maps -/

theorem SlmHas.mono {Q R : Option Int → Option Int → Prop} (h : ∀ a b, Q a b → R a b) {m : Slm}
    (hm : SlmHas Q m) : SlmHas R m := by
  intro n hn
  have := hm n hn
  cases n with
  | source x => exact h _ _ this
  | single x => exact h _ _ this
  | _ => trivial

theorem Dom.Sub.pair {D E : Dom} (L : D.Sub E) {a b : Option Int} (h : D.Pair a b) : E.Pair a b :=
  ⟨fun x hx => L.S x (h.1 x hx), fun x hx => L.C x (h.2 x hx)⟩

/-- The strings of the list-map objects are in the table. -/
def ListsIn (U : Pool) (t : StrTable JVal) (lists : List LVal) : Prop :=
  ∀ v ∈ lists, ∀ m, v.slm = some m → SlmIn (dom U t) m

theorem ListsIn.mono {t t' : StrTable JVal} (g : t.Ext t') {lists : List LVal} (h : ListsIn U t lists) :
    ListsIn U t' lists := fun v hv m hm => (h v hv m hm).mono fun _ _ => (dom_grow U g).pair

theorem ListsIn.push {t : StrTable JVal} {lists : List LVal} (h : ListsIn U t lists) {v : LVal}
    (hv : ∀ m, v.slm = some m → SlmIn (dom U t) m) : ListsIn U t (lists ++ [v]) := by
  intro x hx m hm
  rcases List.mem_append.1 hx with hx | hx
  · exact h x hx m hm
  · cases List.mem_singleton.1 hx; exact hv m hm

theorem ListsIn.set {t : StrTable JVal} {lists : List LVal} (h : ListsIn U t lists) {i : Nat} {v : LVal}
    (hv : ∀ m, v.slm = some m → SlmIn (dom U t) m) : ListsIn U t (lists.set i v) := by
  intro x hx m hm
  rcases List.mem_or_eq_of_mem_set hx with hx | rfl
  · exact h x hx m hm
  · exact hv m hm

/-- What a statement supplies to the table. -/
def LOp.supply (f : JField) : LOp → List JVal
  | .js op => op.supply f
  | .newSource _ s o _ | .newSingle _ s o _ | .newMap _ s o | .add _ _ s o | .prepend _ _ s o => match f with
    | .sources => [truthy s]
    | .contents => [o]
    | _ => []
  | .fromString _ ss cs _ _ => match f with
    | .sources => ss
    | .contents => cs
    | _ => []
  | _ => []

theorem LWorld.names_in {w : LWorld} (W : w.base.Within U) {source : Option Str} {original : JVal}
    (hs : truthy source ∈ U .sources) (ho : original ∈ U .contents) :
    (w.names source original).2.2.base.Within U ∧
    (dom U (w.names source original).2.2.base.strs).Pair (w.names source original).1 (w.names source original).2.1 := by
  simp only [LWorld.names]
  split
  · exact ⟨W, Dom.Pair.none⟩
  · rename_i s e
    rw [e] at hs
    have h1 := W.intern (some s)
    have h2 := h1.1.internNew original
    refine ⟨h2.1, .some (.inr ?_), .some ?_⟩
    · exact (h1.2 U.Src (.inr hs)).grow (World.internNew_same _ _).ext
    · exact h2.2 _ ho

/-- What is inside an argument. -/
def NodeIn (D : Dom) : LNode → Prop
  | .map m => SlmIn D m
  | n => n.Has D.Pair

theorem LWorld.node_in {w : LWorld} {t : StrTable JVal} (H : ListsIn U t w.lists) {a : LArg} {n : LNode}
    (e : w.node a = .ok n) : NodeIn (dom U t) n := by
  cases a with
  | str s => cases e; trivial
  | obj i =>
    simp only [LWorld.node] at e
    split at e
    · cases e
    · cases e
    · cases e
    · cases e; trivial
    · rename_i h
      cases e; exact H _ (List.mem_of_getElem? h) _ rfl _ (List.mem_singleton.2 rfl)
    · rename_i h
      cases e; exact H _ (List.mem_of_getElem? h) _ rfl _ (List.mem_singleton.2 rfl)
    · rename_i h
      cases e; exact H _ (List.mem_of_getElem? h) _ rfl

theorem slmAdd_in {D : Dom} {m m' : Slm} {n : LNode} {s o : Option Int} (hm : SlmIn D m) (hn : NodeIn D n)
    (hp : D.Pair s o) (e : slmAdd m n s o = .ok m') : SlmIn D m' := by
  cases n <;> cases e
  · exact slmAddStr_in hm hp
  · exact hm.append (.one hn)
  · exact hm.append (.one hn)
  · exact hm.append (.one hn)
  · exact hm.append hn

theorem slmPrepend_in {D : Dom} {m m' : Slm} {n : LNode} {s o : Option Int} (hm : SlmIn D m) (hn : NodeIn D n)
    (hp : D.Pair s o) (e : slmPrepend m n s o = .ok m') : SlmIn D m' := by
  cases n with
  | str x =>
    simp only [slmPrepend] at e
    split at e
    · cases e; exact hm.cons hp
    · cases e; exact hm.cons trivial
  | map ch => cases e; exact SlmHas.append hn hm
  | idx _ => cases e
  | code _ => cases e; exact hm.cons hn
  | source _ => cases e; exact hm.cons hn
  | single _ => cases e; exact hm.cons hn

/-! ## Statements on list maps and nodes leave the other objects alone -/

/-- The objects are the same; they may have been read. -/
structure World.Calm (w w' : World) : Prop where
  inv : ∀ A st, w.Inv A st → w'.Inv A st
  labels : ∀ made, w.Labels made → w'.Labels made
  objs : w'.objs = w.objs
  log : ∃ l, w'.log = w.log ++ l ∧ ∀ o ∈ l, Spec.Op.StableMap o ∧ o.isRead = true
  grown : w.strs.Grown w'.strs
  heap : ∀ D, Heap.In D w.heap → Heap.In D w'.heap

theorem World.Calm.same {w w' : World} (h : w.Same w') (g : w.strs.Grown w'.strs) : w.Calm w' :=
  ⟨fun _ _ I => I.same h, fun _ L => L.later h.later (by rw [h.objs]), h.objs, ⟨[], by simp [h.log]⟩, g, fun _ H => h.heap ▸ H⟩

theorem World.Calm.refl (w : World) : w.Calm w := .same (.rfl' w) (.rfl' _)

theorem World.Calm.pushMap (w : World) (e : Emitted) : w.Calm { w with maps := w.maps ++ [e] } :=
  .same ⟨rfl, rfl, rfl, rfl, rfl, ⟨[], by simp⟩, fun _ _ h => h⟩ (.rfl' _)

theorem World.Calm.call {w w' : World} {op : Op} (hc : op.isRead = true) (hs : Spec.Op.StableMap op) {a : Answer}
    (e : w.call op = .ok (a, w')) : w.Calm w' := by
  have hst := (World.call_strs e).1
  have hi : ∀ A st, w.Inv A st → w'.Inv A st := fun A st I => I.read hc e
  obtain ⟨h, hr', rfl⟩ := World.call_ok e
  exact ⟨hi, fun _ L => L.later ⟨⟨_, rfl⟩, .rfl' _⟩ rfl, rfl, ⟨[op], rfl, by simpa using ⟨hs, hc⟩⟩, .of_eq hst,
    fun D H => (Op.run_in (D := D) H (by cases op <;> first | trivial | cases hc) hr').2⟩

theorem LWorld.names_calm (w : LWorld) (source : Option Str) (original : JVal) :
    w.base.Calm (w.names source original).2.2.base := .same (w.names_same _ _) (w.names_grown _ _)

theorem LWorld.names_lined {w : LWorld} (W : w.base.Lined) (source : Option Str) (original : JVal) :
    (w.names source original).2.2.base.Lined := by
  simp only [LWorld.names]
  split
  · exact W
  · exact W.of rfl rfl

/-- What a statement on list maps keeps. -/
structure LKept (U : Pool) (w w' : LWorld) : Prop where
  calm : w.base.Calm w'.base
  within : w'.base.Within U
  lined : w'.base.Lined
  lists : ListsIn U w'.base.strs w'.lists

theorem LWorld.add_kept {w w' : LWorld} (W : w.base.Within U) (hl : w.base.Lined) (H : ListsIn U w.base.strs w.lists)
    {i : Nat} {a : LArg} {source : Option Str} {original : JVal} (hs : truthy source ∈ U .sources)
    (ho : original ∈ U .contents) (e : w.add i a source original = .ok w') : LKept U w w' := by
  simp only [LWorld.add, Except.bind_ok_iff, Except.map_ok_iff] at e
  obtain ⟨n, h1, m, h2, m', h3, rfl⟩ := e
  obtain ⟨g1, g2⟩ := LWorld.names_in W hs ho
  have C := w.names_calm source original
  have H' := H.mono C.grown.ext
  refine ⟨C, g1, LWorld.names_lined hl _ _, ?_⟩
  rw [LWorld.names_lists]
  refine H'.set fun x hx => ?_
  cases hx
  have ht := List.mem_of_getElem? (LWorld.target_some h2)
  rw [LWorld.names_lists] at ht
  have h3 : slmAdd m n (w.names source original).1 (w.names source original).2.1 = .ok m' := by
    cases hq : slmAdd m n (w.names source original).1 (w.names source original).2.1 with
    | error p => rw [hq] at h3; cases h3
    | ok y => rw [hq] at h3; cases h3; rfl
  exact slmAdd_in (H' _ ht _ rfl) (LWorld.node_in H' h1) g2 h3

theorem LWorld.prepend_kept {w w' : LWorld} (W : w.base.Within U) (hl : w.base.Lined) (H : ListsIn U w.base.strs w.lists)
    {i : Nat} {a : LArg} {source : Option Str} {original : JVal} (hs : truthy source ∈ U .sources)
    (ho : original ∈ U .contents) (e : w.prepend i a source original = .ok w') : LKept U w w' := by
  simp only [LWorld.prepend, Except.bind_ok_iff, Except.map_ok_iff] at e
  obtain ⟨n, h1, m, h2, m', h3, rfl⟩ := e
  obtain ⟨g1, g2⟩ := LWorld.names_in W hs ho
  have C := w.names_calm source original
  have H' := H.mono C.grown.ext
  refine ⟨C, g1, LWorld.names_lined hl _ _, ?_⟩
  rw [LWorld.names_lists]
  refine H'.set fun x hx => ?_
  cases hx
  have ht := List.mem_of_getElem? (LWorld.target_some h2)
  rw [LWorld.names_lists] at ht
  have h3 : slmPrepend m n (w.names source original).1 (w.names source original).2.1 = .ok m' := by
    cases hq : slmPrepend m n (w.names source original).1 (w.names source original).2.1 with
    | error p => rw [hq] at h3; cases h3
    | ok y => rw [hq] at h3; cases h3; rfl
  exact slmPrepend_in (H' _ ht _ rfl) (LWorld.node_in H' h1) g2 h3

theorem slm_single {D : Dom} {n : LNode} (h : n.Has D.Pair) : SlmIn D [n] := by
  intro x hx; cases List.mem_singleton.1 hx; exact h

theorem MapFn.apply_in {D : Dom} {f : MapFn} {m m' : Slm} (h : SlmIn D m) (e : f.apply m = some m') : SlmIn D m' := by
  cases f <;> cases e <;> exact slmMapGenerated_in h

theorem LOp.run_kept {w w' : LWorld} (W : w.base.Within U) (hl : w.base.Lined) (H : ListsIn U w.base.strs w.lists)
    {op : LOp} (hj : ∀ o, op ≠ .js o) (hU : ∀ f, ∀ v ∈ op.supply f, v ∈ U f) {a : LAnswer}
    (e : op.run w = .ok (a, w')) : LKept U w w' := by
  have put : ∀ v : LVal, (∀ m, v.slm = some m → SlmIn (dom U w.base.strs) m) → LKept U w (w.put v) := fun v hv =>
    ⟨.refl _, W, hl, H.push hv⟩
  have named : ∀ (source : Option Str) (original : JVal) (v : LVal), truthy source ∈ U .sources →
      original ∈ U .contents →
      (∀ m, v.slm = some m → (dom U (w.names source original).2.2.base.strs).Pair (w.names source original).1
        (w.names source original).2.1 → SlmIn (dom U (w.names source original).2.2.base.strs) m) →
      LKept U w ((w.names source original).2.2.put v) := by
    intro source original v hs ho hv
    obtain ⟨g1, g2⟩ := LWorld.names_in W hs ho
    have C := w.names_calm source original
    refine ⟨C, g1, LWorld.names_lined hl _ _, ?_⟩
    show ListsIn U _ ((w.names source original).2.2.lists ++ [v])
    rw [LWorld.names_lists]
    exact (H.mono C.grown.ext).push fun m hm => hv m hm g2
  cases op with
  | js op => exact absurd rfl (hj op)
  | newCode s =>
    cases e
    refine put _ fun m hm => ?_
    split at hm
    · cases hm
    · cases hm; exact slm_single trivial
  | newSource s source original line =>
    simp only [LOp.run] at e
    split at e
    · cases e; exact put _ fun m hm => by cases hm
    · cases e
      exact named _ _ _ (hU .sources _ (by simp [LOp.supply])) (hU .contents _ (by simp [LOp.supply]))
        fun m hm hp => by cases hm; exact slm_single hp
  | newSingle s source original line =>
    simp only [LOp.run] at e
    split at e
    · cases e; exact put _ fun m hm => by cases hm
    · split at e
      · cases e
      · cases e
        exact named _ _ _ (hU .sources _ (by simp [LOp.supply])) (hU .contents _ (by simp [LOp.supply]))
          fun m hm hp => by cases hm; exact slm_single hp
  | newEmpty => cases e; exact put _ fun m hm => by cases hm; intro n hn; cases hn
  | newMap x source original =>
    simp only [LOp.run] at e
    have empty : LKept U w (w.put (.map [])) := put _ fun m hm => by cases hm; intro n hn; cases hn
    split at e
    · cases e; exact empty
    · simp only [Except.map_ok_iff, Except.bind_ok_iff] at e
      obtain ⟨w2, ⟨-, -, h1⟩, h2⟩ := e
      cases h2
      have := LWorld.add_kept (w := w.put (.map [])) W hl empty.lists (hU .sources _ (by simp [LOp.supply]))
        (hU .contents _ (by simp [LOp.supply])) h1
      exact ⟨this.calm, this.within, this.lined, this.lists⟩
  | newArray as =>
    simp only [LOp.run, Except.map_ok_iff] at e
    obtain ⟨_, -, h2⟩ := e
    cases h2
    exact put _ fun m hm => by cases hm
  | fromString code sources contents names mappings =>
    simp only [LOp.run, Except.map_ok_iff] at e
    obtain ⟨m, h1, h2⟩ := e
    cases h2
    have h1 : slmFromString code (w.base.internAll sources).1
        ((w.base.internAll sources).2.internAllNew contents).1 mappings = .ok m := by
      cases hq : slmFromString code (w.base.internAll sources).1 ((w.base.internAll sources).2.internAllNew contents).1
          mappings with
      | error p => rw [hq] at h1; cases h1
      | ok y => rw [hq] at h1; cases h1; rfl
    have g1 := World.Within.internAll W (P := U.Src) (vs := sources) fun v hv => .inr (hU .sources v hv)
    have g2 := World.Within.internAllNew g1.1 (P := (· ∈ U .contents)) (vs := contents) fun v hv => hU .contents v hv
    have gs := (w.base.internAll_same sources).trans (World.internAllNew_same _ contents)
    have gg : w.base.strs.Grown (((w.base.internAll sources).2.internAllNew contents).2).strs :=
      ⟨gs.strs, fun _ => g2.1.strs, gs.index⟩
    refine ⟨.same gs gg, g2.1, hl.of gs.heap ?_, (H.mono gg.ext).push fun x hx => ?_⟩
    · show ((w.base.internAll sources).2.internAllNew contents).2.maps = _
      rw [World.internAllNew_maps, World.internAll_maps]
    · cases hx
      refine slmFromString_in (fun i => ⟨fun s hs => ?_, fun c hc => ?_⟩) h1
      · exact .inr ((g1.2 s (List.mem_of_getElem? hs)).grow (World.internAllNew_same _ contents).ext)
      · exact g2.2 c (List.mem_of_getElem? hc)
  | listMap j c md =>
    simp only [LOp.run] at e
    split at e
    · cases e
    · rename_i o ho
      split at e
      · cases e
      · split at e
        · cases e
        · rename_i m b hc
          cases e
          have hw := W.call (op := .listMap o.ptr c md) trivial
          have hln := hl.call (op := .listMap o.ptr c md) trivial
          rw [hc] at hw hln
          obtain ⟨g1, g2, g3, g4⟩ := hw
          dsimp only at g1 g2 g3 g4
          have C : w.base.Calm b := .call (op := .listMap o.ptr c md) rfl trivial hc
          refine ⟨C, g1, hln.1, (H.mono C.grown.ext).push fun x hx => ?_⟩
          cases hx
          rw [g3]
          exact g2
        · cases e
  | add i x source original =>
    simp only [LOp.run, Except.map_ok_iff] at e
    obtain ⟨w2, h1, h2⟩ := e
    cases h2
    exact LWorld.add_kept W hl H (hU .sources _ (by simp [LOp.supply])) (hU .contents _ (by simp [LOp.supply])) h1
  | prepend i x source original =>
    simp only [LOp.run, Except.map_ok_iff] at e
    obtain ⟨w2, h1, h2⟩ := e
    cases h2
    exact LWorld.prepend_kept W hl H (hU .sources _ (by simp [LOp.supply])) (hU .contents _ (by simp [LOp.supply])) h1
  | clone i => cases e
  | mapCode i f =>
    simp only [LOp.run] at e
    split at e
    · cases e
    · simp only [Except.bind_ok_iff] at e
      obtain ⟨m, h1, h2⟩ := e
      split at h2
      · cases h2
      · rename_i m' hf
        cases h2
        refine ⟨.refl _, W, hl, ?_⟩
        refine ListsIn.push (H.set fun x hx => by cases hx) fun x hx => ?_
        cases hx
        exact MapFn.apply_in (H _ (List.mem_of_getElem? (LWorld.target_some h1)) _ rfl) hf
  | toString i =>
    simp only [LOp.run, Except.map_ok_iff] at e
    obtain ⟨_, -, h2⟩ := e
    cases h2
    exact ⟨.refl _, W, hl, H⟩
  | render i =>
    simp only [LOp.run, Except.map_ok_iff] at e
    obtain ⟨m, h1, h2⟩ := e
    cases h2
    refine ⟨.pushMap _ _, W.pushMap ⟨fun wm x a b => ?_, fun wm g a b => (by cases a; cases b),
      fun l e => (by cases e), fun l e => (by cases e), fun l e => (by cases e)⟩,
      hl.pushMap (fun wm g a b => by cases a; cases b), H⟩
    cases a; cases b
    exact slmToStringWithSourceMap_in (H _ (List.mem_of_getElem? (LWorld.target_some h1)) _ rfl) (.inl rfl) none

theorem LOp.run_calm {w w' : LWorld} {op : LOp} (hj : ∀ o, op ≠ .js o) {a : LAnswer} (e : op.run w = .ok (a, w')) :
    w.base.Calm w'.base := by
  cases op with
  | js op => exact absurd rfl (hj op)
  | newCode s => cases e; exact .refl _
  | newSource s source original line =>
    simp only [LOp.run] at e
    split at e
    · cases e; exact .refl _
    · cases e; exact w.names_calm source original
  | newSingle s source original line =>
    simp only [LOp.run] at e
    split at e
    · cases e; exact .refl _
    · split at e
      · cases e
      · cases e; exact w.names_calm source original
  | newEmpty => cases e; exact .refl _
  | newMap x source original =>
    simp only [LOp.run] at e
    split at e
    · cases e; exact .refl _
    · simp only [Except.map_ok_iff, Except.bind_ok_iff] at e
      obtain ⟨w2, ⟨-, -, h1⟩, h2⟩ := e
      cases h2
      simp only [LWorld.add, Except.bind_ok_iff, Except.map_ok_iff] at h1
      obtain ⟨_, -, _, -, _, -, rfl⟩ := h1
      exact (w.put (.map [])).names_calm source original
  | newArray as =>
    simp only [LOp.run, Except.map_ok_iff] at e
    obtain ⟨_, -, h2⟩ := e
    cases h2
    exact .refl _
  | fromString code sources contents names mappings =>
    simp only [LOp.run, Except.map_ok_iff] at e
    obtain ⟨m, h1, h2⟩ := e
    cases h2
    exact .same ((w.base.internAll_same sources).trans (World.internAllNew_same _ contents))
      ((w.base.internAll_grown sources).trans (World.internAllNew_grown _ contents))
  | listMap j c md =>
    simp only [LOp.run] at e
    split at e
    · cases e
    · rename_i o ho
      split at e
      · cases e
      · split at e
        · cases e
        · rename_i hc
          cases e
          exact .call (op := .listMap o.ptr c md) rfl trivial hc
        · cases e
  | add i x source original =>
    simp only [LOp.run, Except.map_ok_iff] at e
    obtain ⟨w2, h1, h2⟩ := e
    cases h2
    simp only [LWorld.add, Except.bind_ok_iff, Except.map_ok_iff] at h1
    obtain ⟨_, -, _, -, _, -, rfl⟩ := h1
    exact w.names_calm source original
  | prepend i x source original =>
    simp only [LOp.run, Except.map_ok_iff] at e
    obtain ⟨w2, h1, h2⟩ := e
    cases h2
    simp only [LWorld.prepend, Except.bind_ok_iff, Except.map_ok_iff] at h1
    obtain ⟨_, -, _, -, _, -, rfl⟩ := h1
    exact w.names_calm source original
  | clone i => cases e
  | mapCode i f =>
    simp only [LOp.run] at e
    split at e
    · cases e
    · simp only [Except.bind_ok_iff] at e
      obtain ⟨m, h1, h2⟩ := e
      split at h2
      · cases h2
      · cases h2; exact .refl _
  | toString i =>
    simp only [LOp.run, Except.map_ok_iff] at e
    obtain ⟨_, -, h2⟩ := e
    cases h2
    exact .refl _
  | render i =>
    simp only [LOp.run, Except.map_ok_iff] at e
    obtain ⟨m, h1, h2⟩ := e
    cases h2
    exact .pushMap _ _

/-! ## Nodes -/

theorem NOp.run_calm {w w' : NWorld} {op : NOp} (hj : ∀ o, op ≠ .js o) {a : LAnswer} (e : op.run w = .ok (a, w')) :
    w.base.Calm w'.base := by
  cases op with
  | js op => exact absurd rfl (hj op)
  | newNode line col source items =>
    simp only [NOp.run, Except.map_ok_iff] at e
    obtain ⟨w2, h1, h2⟩ := e
    cases h2
    rw [NWorld.addItems_base h1]
    cases truthy source with
    | none => exact .refl _
    | some s => exact .same (w.base.intern_same _) (w.base.intern_grown _)
  | node j c m =>
    simp only [NOp.run] at e
    split at e
    · cases e
    · rename_i o ho
      split at e
      · cases e
      · split at e
        · cases e
        · rename_i hc
          cases e
          exact .call (op := .node o.ptr c m) rfl trivial hc
        · cases e
  | add i items =>
    simp only [NOp.run, Except.map_ok_iff] at e
    obtain ⟨w2, h1, h2⟩ := e
    cases h2
    rw [NWorld.addItems_base h1]
    exact .refl _
  | render i =>
    simp only [NOp.run] at e
    split at e
    · cases e
    · cases e
    · cases e; exact .pushMap _ _

end WS
