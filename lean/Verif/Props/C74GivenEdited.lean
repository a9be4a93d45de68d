import Verif.Props.C74Given
import Verif.Props.C74Edited
import Verif.Props.C75Given
import Verif.Props.C75All
/-!
# C74 and C75 for programs that give emitted maps: edited objects, smallest maps

In programs over all classes that give emitted pairs back: the maps of edited objects (C65), and that the maps of
objects without `ReplaceSource` are the smallest ones (C75).
-/

namespace WS
open Spec

variable {U : Pool}

/-! ## Spec -/

/-- The files and names that a program mentions, in order, when `hs` are its statements on sources. -/
def Spec.gmentions : List AOp → List (List JOp) → List JVal
  | op :: ops, h :: hs =>
    (match Spec.AOp.onSources op with
      | some _ => Spec.mentions h
      | none => Spec.AOp.mentions op) ++ gmentions ops hs
  | _, _ => []

/-! ## The string table and the heap -/

theorem Numbered.run_given {nb : Prop} {w w' : World} {V : List JVal} (N : Numbered w.strs V) (W : w.Within U)
    (hs : ∀ e ∈ w.maps, e.Sound nb w.strs) {op op' : JOp} (hU : ∀ f v, v ∈ op.supply f → v ∈ U f)
    (h : SpeltOut w op op') {a : JAnswer} (e : op.run w = .ok (a, w')) :
    Numbered w'.strs (V ++ Spec.JOp.mentions op') := by
  by_cases hsms : ∃ v n m o i, op = .newSms v n m o i
  · obtain ⟨v, n, m, o, i, rfl⟩ := hsms
    obtain ⟨m', i', rfl, h5, h6⟩ := h
    simp only [JOp.run, Except.map_ok_iff] at e
    obtain ⟨_, e, h2⟩ := e; cases h2
    exact N.newSms W hU hs e h5 h6
  · have hop : op' = op := by
      cases op <;> first | exact h | exact absurd ⟨_, _, _, _, _, rfl⟩ hsms
    subst hop
    exact N.run (by cases op' <;> first | trivial | exact absurd ⟨_, _, _, _, _, rfl⟩ hsms) e

theorem Numbered.quiet {w w' : World} {V : List JVal} (N : Numbered w.strs V) {tr : List JOp}
    (hq : ∀ o ∈ tr, o.quiet = true) (e : w.runFrom tr = .ok w') : Numbered w'.strs V := by
  have := Numbered.runFrom tr N (fun o ho => Exact.plainMaps (quiet_exact o (hq o ho))) e
  have h0 : Spec.mentions tr = [] := by
    rw [← mentions_loud, List.filter_eq_nil_iff.2 (fun o ho => by simp [JOp.loud, hq o ho])]; rfl
  rwa [h0, List.append_nil] at this

/-- One statement. -/
theorem GInv.more {w w' : AWorld} {s : AState} (G : GInv U w s) {V : List JVal} (N : Numbered w.base.strs V)
    (H : Heap.In posDom w.base.heap) {op : AOp} {here : List JOp} (hU : ∀ f, ∀ v ∈ op.supply f, v ∈ U f)
    (hs : Spec.AOp.Fit op) (hh : SpeltAll w.base (((Spec.AOp.onSources op).map (COp.plain s.t)).getD []) here)
    (hw : ∀ o ∈ here, Spec.JOp.Exact o ∧ Spec.JOp.Readable true o) {a : AAnswer} (e : op.run w = .ok (a, w')) :
    Numbered w'.base.strs (V ++ (match Spec.AOp.onSources op with
      | some _ => Spec.mentions here
      | none => Spec.AOp.mentions op)) ∧ Heap.In posDom w'.base.heap := by
  obtain ⟨s', -, G'⟩ := G.step hU hs hh hw e
  cases hc : Spec.AOp.onSources op with
  | some c =>
    obtain ⟨x, v, h1, rfl⟩ := AOp.run_onSources hc e
    rw [hc] at hh
    replace hh : SpeltAll w.base (c.plain s.t) here := hh
    show Numbered v.base.strs (V ++ Spec.mentions here) ∧ Heap.In posDom v.base.heap
    have quiets : ∀ tr : List JOp, (∀ o ∈ tr, o.quiet = true) → w.base.runFrom tr = .ok v.base → here = [] →
        Numbered v.base.strs (V ++ Spec.mentions here) ∧ Heap.In posDom v.base.heap := by
      rintro tr hq k rfl
      refine ⟨?_, World.runFrom_positive H k fun o ho => quiet_exact o (hq o ho)⟩
      rw [show Spec.mentions [] = [] from rfl, List.append_nil]
      exact N.quiet hq k
    rcases COp.run_steps G.inv.sound h1 with ⟨o, y, k1, k2⟩ | ⟨k1, tr, k2, k3⟩
    · rw [k2] at hh
      cases hq : o.quiet with
      | true =>
        rw [hq] at hh
        exact quiets [o] (fun x hx => by cases List.mem_singleton.1 hx; exact hq) (World.runFrom_one k1) hh
      | false =>
        rw [hq] at hh k2
        obtain ⟨o', rest, rfl, h3, h4⟩ := hh
        replace h4 : rest = [] := h4
        subst h4
        have hsup : ∀ f v, v ∈ o.supply f → v ∈ U f := by
          intro f v hv
          have ho : o ∈ c.plain s.t := by rw [k2]; simp
          cases c with
          | js p =>
            simp only [COp.plain] at ho
            split at ho
            · cases ho
            · cases List.mem_singleton.1 ho
              refine hU f v ?_
              cases op with
              | c q => cases hc; exact hv
              | n q => cases q <;> cases hc; exact hv
              | l q => cases q <;> cases hc; exact hv
              | cachedNode => cases hc
              | cachedList => cases hc
          | newPrefix p y => cases List.mem_singleton.1 ho; cases hv
          | newReplace y => cases List.mem_singleton.1 ho; cases hv
          | newConcat ys => cases List.mem_singleton.1 ho; cases hv
          | add j y => cases List.mem_singleton.1 ho; cases hv
          | _ => cases ho
        obtain ⟨l, -, hrun, hall⟩ := JOp.run_given_calls G.inv.nodes.base G'.inv.nodes.base G.sounds h3 k1
        refine ⟨?_, Heap.In.runFrom H hall hrun⟩
        have := N.run_given G.inv.nodes.base G.sounds hsup h3 k1
        simpa [Spec.mentions] using this
    · rw [k1] at hh
      exact quiets tr k3 k2 hh
  | none =>
    rcases AOp.run_others hc e with ⟨o, x, v, hj, h, rfl, h2⟩ | ⟨o, x, v, hj, h, rfl, h2⟩
    · refine ⟨?_, (NOp.run_calm (w := w.n) hj h).heap _ H⟩
      have := NOp.run_numbered (w := w.n) N hj h
      rcases h2 with rfl | ⟨k, p, j, rfl, h2, rfl⟩
      · exact this
      · exact this
    · refine ⟨?_, (LOp.run_calm (w := w.l) hj h).heap _ H⟩
      have := LOp.run_numbered (w := w.l) N hj h
      rcases h2 with rfl | ⟨k, p, j, rfl, h2, rfl⟩
      · exact this
      · exact this

theorem GInv.runFrom_more : ∀ {ops : List AOp} {w w' : AWorld} {s : AState} {V : List JVal} {hs : List (List JOp)},
    GInv U w s → Numbered w.base.strs V → Heap.In posDom w.base.heap →
    (∀ op ∈ ops, ∀ f, ∀ v ∈ op.supply f, v ∈ U f) → (∀ op ∈ ops, Spec.AOp.Fit op) → GivenFrom w s.t ops hs →
    WellGiven hs → w.runFrom ops = .ok w' →
    Numbered w'.base.strs (V ++ gmentions ops hs) ∧ Heap.In posDom w'.base.heap
  | [], _, _, s, V, hs, I, N, H, _, _, h, _, e => by cases e; cases h; exact ⟨by simpa [gmentions] using N, H⟩
  | op :: ops, w, w', s, V, hs, I, N, H, hU, hf, h, hw, e => by
    simp only [AWorld.runFrom, Except.bind_ok_iff] at e
    obtain ⟨⟨a, w1⟩, h1, h2⟩ := e
    obtain ⟨a', w1', here, rest, h1', rfl, h3, h4⟩ := h
    rw [h1] at h1'; cases h1'
    obtain ⟨s1, h5, I1⟩ := I.step (hU op (by simp)) (hf op (by simp)) h3 (hw here (by simp)) h1
    obtain ⟨N1, H1⟩ := I.more N H (hU op (by simp)) (hf op (by simp)) h3 (hw here (by simp)) h1
    rw [← (TellsHere.things h5).1] at h4
    have := GInv.runFrom_more (ops := ops) I1 N1 H1 (fun o ho => hU o (by simp [ho]))
      (fun o ho => hf o (by simp [ho])) h4 (fun x hx => hw x (by simp [hx])) h2
    rwa [List.append_assoc] at this

theorem GInv.of_run_more {ops : List AOp} {w : AWorld} {hs : List (List JOp)} (r : AWorld.run ops = .ok w)
    (hf : ∀ op ∈ ops, Spec.AOp.Fit op) (h : GivenFrom AWorld.empty ⟨[], []⟩ ops hs) (hw : WellGiven hs) :
    Numbered w.base.strs (gmentions ops hs) ∧ Heap.In posDom w.base.heap := by
  have := GInv.runFrom_more (U := AOp.pool ops) (w := AWorld.empty) (s := .start) (V := [])
    ⟨.empty, fun e he => by cases he⟩ Numbered.empty (fun i o h => by simp [AWorld.empty, World.empty] at h)
    (fun op ho f v hv => List.mem_flatMap.2 ⟨op, ho, hv⟩) hf h hw r
  simpa using this

theorem AInv.edited_of {w : AWorld} {s : AState} (I : AInv U w s) {V : List JVal}
    (N : Numbered w.base.strs V) (hah : ∀ o ∈ s.js, Spec.JOp.Ahead o) {j k : Nat}
    {md : Bool} {b b2 : World} (ho : Orderly s.t.things (jmade s.js) V (.obj j))
    (e : (JOp.sourceAndMap j true md).run w.base = .ok (.pair k, b)) (e2 : World.Lasts k b b2) :
    ∃ m, JCarries s.t.things (jmade s.js) (.obj j) m ∧ KeepsPlaces b2 k m := by
  obtain ⟨A, J⟩ := I.lists.backed.inv
  have hahead : AllAhead (jthings s.js) := allAhead s.js (fun j c rs h => by simp at h) hah
  have T : Together (jmade s.js) (jthings s.js) :=
    together s.js (made := []) (st := []) ⟨rfl, fun j op x h => by simp at h⟩
  rw [← I.things] at ho ⊢
  exact World.emit_carries J I.lists.backed.labels I.nodes.base I.nodes.lined I.lists.backed.stable N T hahead
    (fun op h => I.exact op (List.mem_filter.1 h).1) (fun op h => (List.mem_filter.1 h).2) ho e e2

theorem AInv.exactly_of {w : AWorld} {s : AState} (I : AInv U w s)
    (H : Heap.In posDom w.base.heap) {j k : Nat} {md : Bool} {b b2 : World} (hu : Unreplaced s.t.things false (.obj j))
    (e : (JOp.sourceAndMap j true md).run w.base = .ok (.pair k, b)) (e2 : World.Lasts k b b2) :
    ∃ m, (∀ m', JPlaces s.t.things (jmade s.js) (.obj j) m' ↔ m' = m) ∧ ShowsExactly b2 k m := by
  obtain ⟨A, J⟩ := I.lists.backed.inv
  have T : Together (jmade s.js) (jthings s.js) :=
    together s.js (made := []) (st := []) ⟨rfl, fun j op x h => by simp at h⟩
  rw [← I.things] at hu ⊢
  obtain ⟨m, h1, h2⟩ := World.emit_exact J I.lists.backed.labels I.nodes.base I.nodes.lined H I.lists.backed.stable
    (fun op h => I.exact op (List.mem_filter.1 h).1) (fun op h => (List.mem_filter.1 h).2) hu e e2
  exact ⟨m, fun m' => ⟨fun h => JPlaces.unique T h1 hu h, fun h => h ▸ h1⟩, h2⟩

/-! ## The claims -/

/-- The map with columns of an object, edited or not; `hs` are the statements on sources with the maps as they read.

`_partial`: as C65, the files in the order in which the statements of all classes mention them. -/
theorem C74_given_edited_partial (ops more : List AOp) (hs : List (List JOp)) (w w1 w2 : AWorld) (j k : Nat)
    (module_ : Bool) (r : AWorld.run ops = .ok w) (hf : ∀ op ∈ ops, Spec.AOp.Fit op)
    (h : GivenFrom AWorld.empty ⟨[], []⟩ ops hs) (hw : WellGiven hs) (hah : ∀ o ∈ hs.flatten, Spec.JOp.Ahead o)
    (ho : Orderly (cthings (sourceOps ops)).things (jmade hs.flatten) (gmentions ops hs) (.obj j))
    (e : (AOp.c (.js (.sourceAndMap j true module_))).run w = .ok (.c (.js (.pair k)), w1))
    (hm : ∀ o ∈ more, ∀ c, Spec.AOp.onSources o = some c → c.Proper) (hk : ∀ o ∈ more, Spec.AOp.Spares k o)
    (e2 : w1.runFrom more = .ok w2) :
    ∃ m, JCarries (cthings (sourceOps ops)).things (jmade hs.flatten) (.obj j) m ∧ KeepsPlaces w2.base k m := by
  obtain ⟨s, -, I, h1, h2⟩ := GInv.of_run r hf h hw
  have e3 := AWorld.then_lasts I.sound (fun c hc => by cases hc; trivial) e hm hk e2
  obtain ⟨x, h3, h4⟩ := AOp.run_js e
  cases h4
  have N := (GInv.of_run_more r hf h hw).1
  rw [← h1] at ho ⊢
  rw [← h2] at ho hah ⊢
  exact I.edited_of N hah ho h3 e3

/-- The map with columns that a `CachedSource` of such an object hands out: as the statements up to the moment it was
emitted say. -/
theorem C74_given_cached_edited_partial (lo ops more : List AOp) (hs : List (List JOp)) (w w1 w2 : AWorld) (op : AOp)
    (x : AAnswer) (k m : Nat) (o : Option JOpts) (hf : ∀ op ∈ lo ++ ops, Spec.AOp.Fit op)
    (h : GivenFrom AWorld.empty ⟨[], []⟩ (lo ++ ops) hs) (hw : WellGiven hs)
    (hah : ∀ o ∈ hs.flatten, Spec.JOp.Ahead o)
    (hm : ∀ o ∈ more, ∀ c, Spec.AOp.onSources o = some c → c.Proper) (hlo : ∀ op ∈ lo, Spec.AOp.asked op = none)
    (r : AWorld.run (lo ++ ops) = .ok w) (ha : Spec.AOp.asked op = some (k, o)) (hc : asksColumns o = true)
    (e : op.run w = .ok (x, w1)) (hx : Spec.AAnswer.theMap x = some (some m))
    (hk : ∀ o ∈ ops ++ more, Spec.AOp.Spares m o) (e2 : w1.runFrom more = .ok w2) :
    ∃ j a rest hs1 hs2, ops = a ++ rest ∧ (cthings (sourceOps (lo ++ ops))).stands[k]? = some j ∧ hs = hs1 ++ hs2 ∧
      hs1.length = (lo ++ a).length ∧
      (Orderly (cthings (sourceOps (lo ++ a))).things (jmade hs1.flatten) (gmentions (lo ++ a) hs1) (.obj j) →
        ∃ mk, JCarries (cthings (sourceOps (lo ++ a))).things (jmade hs1.flatten) (.obj j) mk ∧
          KeepsPlaces w2.base m mk) ∧
      (Unreplaced (cthings (sourceOps (lo ++ a))).things false (.obj j) →
        ∃ mk, (∀ m', JPlaces (cthings (sourceOps (lo ++ a))).things (jmade hs1.flatten) (.obj j) m' ↔ m' = mk) ∧
          ShowsExactly w2.base m mk) := by
  obtain ⟨j, a, rest, u, c, md, b1, rfl, h2, h3, h4, h5, h6⟩ := AWorld.origin lo ops more w w1 w2 op x k m o
    (fun q hq => by
      rcases List.mem_append.1 hq with hq | hq
      · exact Fit.proper (hf q hq)
      · exact hm q hq) hlo r ha e hx hk e2
  rw [← List.append_assoc] at h hf
  obtain ⟨hs1, hs2, rfl, g1, g2⟩ := GivenFrom.split h
  obtain rfl : c = true := by rcases h4 with ⟨h, -⟩ | ⟨h, -⟩ <;> simp [h, hc]
  have hf1 : ∀ q ∈ lo ++ a, Spec.AOp.Fit q := fun q hq => hf q (List.mem_append_left _ hq)
  have hw1 : WellGiven hs1 := fun y hy => hw y (List.mem_append_left _ hy)
  obtain ⟨s, -, I, k1, k2⟩ := GInv.of_run h3 hf1 g2 hw1
  obtain ⟨N, H⟩ := GInv.of_run_more h3 hf1 g2 hw1
  have hah1 : ∀ o ∈ hs1.flatten, Spec.JOp.Ahead o := fun o ho => hah o (by
    rw [List.flatten_append]; exact List.mem_append_left _ ho)
  refine ⟨j, a, rest, hs1, hs2, rfl, h2, rfl, g1, ?_⟩
  rw [← k1]
  rw [← k2] at hah1 ⊢
  exact ⟨fun ho => I.edited_of N hah1 ho h5 h6, fun hu => I.exactly_of H hu h5 h6⟩

/-- C75 in programs over all classes that give emitted maps: the pair of an object without `ReplaceSource` and empty
strings is exactly the smallest one for what the object says. Missing: what is missing in `C75_partial`. -/
theorem C75_all_given_partial (ops more : List AOp) (hs : List (List JOp)) (w w1 w2 : AWorld) (j k : Nat)
    (module_ : Bool) (r : AWorld.run ops = .ok w) (hf : ∀ op ∈ ops, Spec.AOp.Fit op)
    (h : GivenFrom AWorld.empty ⟨[], []⟩ ops hs) (hw : WellGiven hs)
    (hu : Unreplaced (cthings (sourceOps ops)).things false (.obj j))
    (e : (AOp.c (.js (.sourceAndMap j true module_))).run w = .ok (.c (.js (.pair k)), w1))
    (hm : ∀ o ∈ more, ∀ c, Spec.AOp.onSources o = some c → c.Proper) (hk : ∀ o ∈ more, Spec.AOp.Spares k o)
    (e2 : w1.runFrom more = .ok w2) :
    ∃ m, (∀ m', JPlaces (cthings (sourceOps ops)).things (jmade hs.flatten) (.obj j) m' ↔ m' = m) ∧
      ShowsExactly w2.base k m := by
  obtain ⟨s, -, I, h1, h2⟩ := GInv.of_run r hf h hw
  have e3 := AWorld.then_lasts I.sound (fun c hc => by cases hc; trivial) e hm hk e2
  obtain ⟨x, h3, h4⟩ := AOp.run_js e
  cases h4
  have H := (GInv.of_run_more r hf h hw).2
  rw [← h1] at hu ⊢
  rw [← h2]
  exact I.exactly_of H hu h3 e3

/-! Non-trivial case: the pair of a node is given to a `SourceMapSource`, a statement is deleted from that (through a
`CachedSource`), and code from another file follows. -/

def c74GEdits : List AOp :=
  [.n (.newNode 3 1 (some "n.js".toList) [.str "ab;cd;".toList]), .n (.render 0),
   .c (.js (.newSms "ab;cd;".toList "b.js".toList (.emitted 0) none none)), .c (.newCached (.obj 0)),
   .c (.newReplace (.ref (.cached 0))), .c (.js (.replace 1 3 5 [])),
   .c (.js (.newOriginal "x".toList "x.js".toList)), .c (.js (.newConcat [.obj 1, .obj 2])), .c (.newCached (.obj 3))]

/-- The statements on sources, with the map as it reads. -/
def c74GEditsHere : List (List JOp) :=
  [[], [], [.newSms "ab;cd;".toList "b.js".toList (.plain [some "n.js".toList] [] [] "AAEC".toList) none none], [],
   [.newReplace (.obj 0)], [.replace 1 3 5 []], [.newOriginal "x".toList "x.js".toList], [.newConcat [.obj 1, .obj 2]], []]

/-- What they say of the last object. -/
def c74GEdited : PlacedMarks := c63From "ab;" "n.js" 3 1 none ++ c63From "x" "x.js" 1 0 none

theorem c74GEdits_given : GivenFrom AWorld.empty ⟨[], []⟩ c74GEdits c74GEditsHere := given_of_check (by decide +kernel)

theorem c74GEdits_fit : ∀ op ∈ c74GEdits, Spec.AOp.Fit op := by
  intro op ho
  simp only [c74GEdits, List.mem_cons, List.not_mem_nil, or_false] at ho
  rcases ho with rfl | rfl | rfl | rfl | rfl | rfl | rfl | rfl | rfl <;>
    refine ⟨fun o h => ?_, fun o h => ?_⟩ <;> cases h
  · exact fun _ => by decide
  · trivial
  · exact ⟨trivial, trivial, rfl, fun k l h => by cases h⟩
  · refine ⟨?_, by simp [Spec.JOp.FewLines], trivial, fun k l h => by cases h⟩
    simp only [JOp.Proper, Spec.Proper]
    decide +kernel
  · exact ⟨trivial, by simp only [Spec.JOp.FewLines]; unfold Spec.FewLines; decide, trivial, fun k l h => by cases h⟩
  · exact ⟨trivial, trivial, trivial, fun k l h => by cases h⟩

theorem c74GEdits_well : WellGiven c74GEditsHere := by
  intro h hh o ho
  simp only [c74GEditsHere, List.mem_cons, List.not_mem_nil, or_false] at hh
  rcases hh with rfl | rfl | rfl | rfl | rfl | rfl | rfl | rfl | rfl <;>
    first | (cases ho; done) | cases List.mem_singleton.1 ho
  · exact ⟨⟨⟨_, _, _, _, rfl, [⟨1, 0, some ⟨0, 3, 1, none⟩⟩], by decide +kernel, by simp [Point.Small], by simp,
      by decide +kernel⟩, fun i hi => by cases hi⟩, _, _, _, _, rfl, fun _ => by decide +kernel⟩
  · exact ⟨trivial, trivial⟩
  · exact ⟨trivial, trivial⟩
  · exact ⟨trivial, trivial⟩
  · exact ⟨trivial, trivial⟩

theorem c74GEdits_things : (cthings (sourceOps c74GEdits)).things = [.leaf "ab;cd;".toList [],
    .replaced (.obj 0) [⟨3, 5, []⟩], .leaf "x".toList [], .joined [.obj 1, .obj 2]] := by decide +kernel

/-- What the given map says. -/
def c74GEditsMap : PlacedMarks :=
  placedBy (told [some "n.js".toList] [] [⟨1, 0, some ⟨0, 3, 1, none⟩⟩]) (1, 0) "ab;cd;".toList

example : (∀ o ∈ c74GEditsHere.flatten, Spec.JOp.Ahead o) ∧
    Orderly (cthings (sourceOps c74GEdits)).things (jmade c74GEditsHere.flatten) (gmentions c74GEdits c74GEditsHere)
      (.obj 3) ∧
    JCarries (cthings (sourceOps c74GEdits)).things (jmade c74GEditsHere.flatten) (.obj 3) c74GEdited ∧
    Unreplaced (cthings (sourceOps c74GEdits)).things false (.obj 0) ∧
    JPlaces (cthings (sourceOps c74GEdits)).things (jmade c74GEditsHere.flatten) (.obj 0) c74GEditsMap ∧
    encode (segsOf c74GEditsMap) = "AAEC".toList ∧
    (∀ op ∈ c74GEdits, Spec.AOp.asked op = none) ∧ (cthings (sourceOps c74GEdits)).stands[1]? = some 3 := by
  rw [c74GEdits_things]
  refine ⟨?_, ?_, ?_, .leaf rfl, .sms rfl (by decide +kernel), by decide +kernel,
    by simp [c74GEdits, Spec.AOp.asked, Spec.AOp.onSources, COp.asked], by decide +kernel⟩
  · intro o ho
    simp only [c74GEditsHere, List.flatten_cons, List.flatten_nil, List.nil_append, List.cons_append, List.mem_cons,
      List.not_mem_nil, or_false] at ho
    rcases ho with rfl | rfl | rfl | rfl | rfl <;> first | trivial | (simp only [Spec.JOp.Ahead]; decide +kernel)
  · refine .forwards (u := [c74GEditsMap, ownPlaces (some "x.js".toList) (1, 0) (segments "x".toList)].flatten)
      (.joined (items := [.obj 1, .obj 2]) rfl rfl ?_) (by decide +kernel)
    intro k i m hi hm
    match k, hi, hm with
    | 0, hi, hm => cases hi; cases hm; exact .replaced (c := .obj 0) rfl (.leaf rfl (.sms rfl (by decide +kernel)))
    | 1, hi, hm => cases hi; cases hm; exact .leaf rfl (.original rfl)
    | k + 2, hi, hm => simp at hi
  · have e : c74GEdited = [c63From "ab;" "n.js" 3 1 none, c63From "x" "x.js" 1 0 none].flatten := by decide +kernel
    rw [e]
    refine .joined (items := [.obj 1, .obj 2]) rfl rfl ?_
    intro k i m hi hm
    match k, hi, hm with
    | 0, hi, hm =>
      cases hi; cases hm
      refine .replaced (es := [(⟨3, 5, []⟩, 0)]) (c := .obj 0) (rs := [⟨3, 5, []⟩]) (m := c74GEditsMap) rfl
        ⟨.refl _, by simp⟩ (.leaf rfl (.sms rfl (by decide +kernel)))
    | 1, hi, hm =>
      cases hi; cases hm
      exact .leaf (m := ownPlaces (some "x.js".toList) (1, 0) (segments "x".toList)) rfl (.original rfl)
    | k + 2, hi, hm => simp at hi

example : (answersFrom AWorld.empty (c74GEdits ++ [.c (.js (.sourceAndMap 3 true true)), .c (.js (.get 1 .source)),
      .c (.js (.get 1 .sources)), .c (.js (.get 1 .mappings)), .c (.map 1 none), .c (.js (.get 2 .mappings)),
      .c (.js (.sourceAndMap 0 true true)), .c (.js (.get 3 .mappings))])).drop 9 =
    [.c (.js (.pair 1)), .c (.js (.field (.text "ab;x".toList))),
     .c (.js (.field (.list [some "n.js".toList, some "x.js".toList]))),
     .c (.js (.field (.text "AAEC,GCFD".toList))), .c (.map (some 2)), .c (.js (.field (.text "AAEC,GCFD".toList))),
     .c (.js (.pair 3)), .c (.js (.field (.text "AAEC".toList)))] := by decide +kernel

end WS
