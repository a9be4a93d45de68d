import Verif.Props.C74Names
import Verif.Props.C84
/-!
# C84 where emitted maps are given back, and for programs over all classes
-/

namespace WS
open Spec

/-- C84 where emitted maps are given back: `made` are the constructions with the maps as they read. -/
theorem C84_given_partial (ops more made : List JOp) (w w1 w2 : World) (j k : Nat) (module_ : Bool) (u : PlacedMarks)
    (r : World.run ops = .ok w) (hp : ∀ op ∈ ops, op.Proper) (hf : ∀ op ∈ ops, Spec.JOp.FewLines op)
    (hn : NamesFit ops) (hsim : ∀ op ∈ ops, Spec.JOp.Simple op) (hm : MadeFrom World.empty ops made)
    (hr : ∀ op ∈ made, Spec.JOp.Exact op) (hu : JUnedited (jthings ops) made (.obj j) u)
    (e : (JOp.sourceAndMap j true module_).run w = .ok (.pair k, w1)) (e2 : w1.runFrom more = .ok w2)
    (hg : ∀ op ∈ more, ¬ op.gives k) (hset : ∀ a, .set k a ∉ more) : InventsNothing w2 k u := by
  obtain ⟨A, I⟩ := World.run_inv hp r
  have W := World.run_within ops
  rw [r] at W
  have W : w.Within (supplied ops) := W
  obtain ⟨L, hst⟩ := World.run_given hp hf hn hsim hm (fun op h => exact_strict (hr op h)) r
  obtain ⟨u', h1, h2⟩ := World.emit_invents I L W (World.run_lined hf r) hst hr (made_makes hm) e
    (.of_run e2 hg hset)
  rw [hu.unique (made_together hm) h1] at h2
  exact h2

theorem AInv.invents {w : AWorld} {s : AState} (I : AInv U w s) {j k : Nat} {md : Bool} {b b2 : World}
    {u : PlacedMarks} (hu : JUnedited s.t.things (jmade s.js) (.obj j) u)
    (e : (JOp.sourceAndMap j true md).run w.base = .ok (.pair k, b)) (e2 : World.Lasts k b b2) :
    InventsNothing b2 k u := by
  obtain ⟨A, J⟩ := I.lists.backed.inv
  have T : Together (jmade s.js) (jthings s.js) :=
    together s.js (made := []) (st := []) ⟨rfl, fun j op x h => by simp at h⟩
  rw [← I.things] at hu
  obtain ⟨u', h1, h2⟩ := World.emit_invents J I.lists.backed.labels I.nodes.base I.nodes.lined
    I.lists.backed.stable (fun op h => I.exact op (List.mem_filter.1 h).1)
    (fun op h => (List.mem_filter.1 h).2) e e2
  rw [hu.unique T h1] at h2
  exact h2

/-- C84 for programs over all classes that give emitted maps back. -/
theorem C84_all_given_partial (ops more : List AOp) (hs : List (List JOp)) (w w1 w2 : AWorld) (j k : Nat)
    (module_ : Bool) (u : PlacedMarks) (r : AWorld.run ops = .ok w) (hf : ∀ op ∈ ops, Spec.AOp.Fit op)
    (h : GivenFrom AWorld.empty ⟨[], []⟩ ops hs) (hw : WellGiven hs)
    (hu : JUnedited (cthings (sourceOps ops)).things (jmade hs.flatten) (.obj j) u)
    (e : (AOp.c (.js (.sourceAndMap j true module_))).run w = .ok (.c (.js (.pair k)), w1))
    (hm : ∀ o ∈ more, ∀ c, Spec.AOp.onSources o = some c → c.Proper) (hk : ∀ o ∈ more, Spec.AOp.Spares k o)
    (e2 : w1.runFrom more = .ok w2) : InventsNothing w2.base k u := by
  obtain ⟨s, -, I, h1, h2⟩ := GInv.of_run r hf h hw
  have e3 := AWorld.then_lasts I.sound (fun c hc => by cases hc; trivial) e hm hk e2
  obtain ⟨x, h3, h4⟩ := AOp.run_js e
  cases h4
  rw [← h1] at hu
  rw [← h2] at hu
  exact I.invents hu h3 e3

/-! Non-trivial cases: the hypotheses hold of the pairs of `c66Cut` and `c74Named`; the latter's unedited code: -/

example : JUnedited (cthings (sourceOps c74Named)).things (jmade c74NamedHere.flatten) (.obj 2) c65NamesCode := by
  rw [c74Named_things]
  exact .replaced (c := .obj 1) (rs := [⟨1, 1, []⟩]) rfl (.leaf rfl c74Named_leaf)

example : JUnedited (jthings c66Cut) (c66Made ++ [.newReplace (.obj 3)]) (.obj 7) c66Marks :=
  .replaced (c := .obj 3) (rs := [⟨2, 3, []⟩]) (by decide +kernel) (.leaf rfl c66_cutMarks)

end WS
