import Verif.Props.C74Names
import Verif.Props.C86
/-!
# C86 where emitted maps are given back, and for programs over all classes
-/

namespace WS
open Spec

/-- C86 where emitted maps are given back: `made` are the constructions with the maps as they read. -/
theorem C86_given_columns (ops made : List JOp) (w w1 w2 : World) (i j k k' : Nat) (m : Bool) (l : List Constituent)
    (r : World.run ops = .ok w) (hp : ∀ op ∈ ops, op.Proper) (hf : ∀ op ∈ ops, Spec.JOp.FewLines op)
    (hn : NamesFit ops) (hsim : ∀ op ∈ ops, Spec.JOp.Simple op) (hm : MadeFrom World.empty ops made)
    (hw : ∀ op ∈ made, Spec.JOp.Strict op)
    (hi : Constituents (jthings ops) (jmade ops) (.obj i) l) (hj : Constituents (jthings ops) (jmade ops) (.obj j) l)
    (e1 : (JOp.sourceAndMap i true m).run w = .ok (.pair k, w1))
    (e2 : (JOp.sourceAndMap j true m).run w1 = .ok (.pair k', w2)) (f : JField) (v : JFieldVal) :
    Reads w2 k f v ↔ Reads w2 k' f v := by
  obtain ⟨A, I⟩ := World.run_inv hp r
  exact World.emit_same I (World.run_labels hp r) (stable_of_ops I.log (World.run_given hp hf hn hsim hm hw r).2) hi hj e1 e2 f v

/-- If `sourceAndMap()` of one returns a pair, so does that of the other, unless this is a `RawSource`. -/
theorem C86_given_returns (ops made : List JOp) (w w1 : World) (i j k : Nat) (m : Bool) (l : List Constituent)
    (r : World.run ops = .ok w) (hp : ∀ op ∈ ops, op.Proper) (hf : ∀ op ∈ ops, Spec.JOp.FewLines op)
    (hn : NamesFit ops) (hsim : ∀ op ∈ ops, Spec.JOp.Simple op) (hm : MadeFrom World.empty ops made)
    (hw : ∀ op ∈ made, Spec.JOp.Strict op)
    (hi : Constituents (jthings ops) (jmade ops) (.obj i) l) (hj : Constituents (jthings ops) (jmade ops) (.obj j) l)
    (e1 : (JOp.sourceAndMap i true m).run w = .ok (.pair k, w1)) :
    (∃ w2, (JOp.sourceAndMap j true m).run w1 = .ok (.pair (k + 1), w2)) ∨
      ∃ v, (JOp.sourceAndMap j true m).run w1 = .ok (.textOnly v, w1) := by
  obtain ⟨A, I⟩ := World.run_inv hp r
  exact World.emit_returns I (World.run_labels hp r) (stable_of_ops I.log (World.run_given hp hf hn hsim hm hw r).2) hi hj e1

/-- C86 for programs over all classes that give emitted maps back. -/
theorem C86_all_given_columns (ops : List AOp) (hs : List (List JOp)) (w w1 w2 : AWorld) (i j k k' : Nat)
    (m : Bool) (l : List Constituent) (r : AWorld.run ops = .ok w) (hf : ∀ op ∈ ops, Spec.AOp.Fit op)
    (h : GivenFrom AWorld.empty ⟨[], []⟩ ops hs) (hw : WellGiven hs)
    (hi : Constituents (cthings (sourceOps ops)).things (jmade hs.flatten) (.obj i) l)
    (hj : Constituents (cthings (sourceOps ops)).things (jmade hs.flatten) (.obj j) l)
    (e1 : (AOp.c (.js (.sourceAndMap i true m))).run w = .ok (.c (.js (.pair k)), w1))
    (e2 : (AOp.c (.js (.sourceAndMap j true m))).run w1 = .ok (.c (.js (.pair k')), w2)) (f : JField) (v : JFieldVal) :
    Reads w2.base k f v ↔ Reads w2.base k' f v := by
  obtain ⟨s, -, I, h1, h2⟩ := GInv.of_run r hf h hw
  obtain ⟨A, J⟩ := I.lists.backed.inv
  rw [← h1, ← h2, ← I.things] at hi hj
  obtain ⟨x, h3, h4⟩ := AOp.run_js e1
  cases h4
  obtain ⟨x, h5, h6⟩ := AOp.run_js e2
  cases h6
  exact World.emit_same J I.lists.backed.labels (stable_of_ops J.log I.lists.backed.stable) hi hj h3 h5 f v

/-! Non-trivial case: the object of `c66Program` with an emitted map, prefixed at once and in two parts. The
conditions of `C86_given_columns` are those of C66, shown there. -/

/-- The program. -/
def c86Back : List JOp := c66Program ++ [.newPrefix " ".toList (.obj 3), .newPrefix ">".toList (.obj 7)]

example : MadeFrom World.empty c86Back
    (c66Made ++ [.newPrefix " ".toList (.obj 3), .newPrefix ">".toList (.obj 7)]) :=
  made_of_check (by decide +kernel)

example : Constituents (jthings c86Back) (jmade c86Back) (.obj 4) [.prefixed "> ".toList [.single 3]] ∧
    Constituents (jthings c86Back) (jmade c86Back) (.obj 8) [.prefixed "> ".toList [.single 3]] := by
  have h0 : Constituents (jthings c86Back) (jmade c86Back) (.obj 3) [.single 3] :=
    .single (v := "x\na;b {\n  c }\npq\n".toList) (x := _) rfl
  exact ⟨.prefixed (a := 3) (by decide +kernel) (by decide) h0,
    .nested (a := 7) (p := ">".toList) (q := " ".toList) (by decide +kernel) (by decide)
      (.prefixed (a := 3) (by decide +kernel) (by decide) h0)⟩

/-- The pairs. -/
example : ((World.run c86Back).toOption.bind fun w => ((JOp.sourceAndMap 4 true true).run w).toOption.bind fun x =>
    ((JOp.sourceAndMap 8 true true).run x.2).toOption.map fun y => (x.1, y.1,
      [2, 3].map fun k => ((JOp.get k .mappings).run y.2).toOption.map Prod.fst)) =
    some (.pair 2, .pair 3, [some (.field (.text ";AAAA,IAAE;AACF;ACDAA,GCEAA".toList)),
      some (.field (.text ";AAAA,IAAE;AACF;ACDAA,GCEAA".toList))]) := by decide +kernel

end WS
