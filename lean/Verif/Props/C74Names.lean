import Verif.Props.C65Names
import Verif.Props.C66
import Verif.Props.C74GivenEdited
/-!
# C65 with names where emitted maps are given back, and for programs over all classes
-/

namespace WS
open Spec

/-- C66 for edited code with names, as `C65_names_partial`. -/
theorem C66_edited_names_partial (ops more made : List JOp) (w w1 w2 : World) (j k : Nat) (module_ : Bool)
    (m u : PlacedMarks)
    (r : World.run ops = .ok w) (hp : ∀ op ∈ ops, op.Proper) (hf : ∀ op ∈ ops, Spec.JOp.FewLines op)
    (hn : NamesFit ops) (hsim : ∀ op ∈ ops, Spec.JOp.Simple op) (hm : MadeFrom World.empty ops made)
    (hr : ∀ op ∈ made, Spec.JOp.Exact op) (hah : ∀ op ∈ ops, Spec.JOp.Ahead op)
    (ho : Orderly (jthings ops) made (mentions made) (.obj j)) (hs : Steady (jthings ops) (.obj j))
    (hc : JCarries (jthings ops) made (.obj j) m) (hu : JUnedited (jthings ops) made (.obj j) u) (h1 : OneName u)
    (e : (JOp.sourceAndMap j true module_).run w = .ok (.pair k, w1)) (e2 : w1.runFrom more = .ok w2)
    (hg : ∀ op ∈ more, ¬ op.gives k) (hset : ∀ a, .set k a ∉ more) : KeepsNames w2 k m := by
  obtain ⟨A, I⟩ := World.run_inv hp r
  have W := World.run_within ops
  rw [r] at W
  have W : w.Within (supplied ops) := W
  obtain ⟨L, hst⟩ := World.run_given hp hf hn hsim hm (fun op h => exact_strict (hr op h)) r
  obtain ⟨m', u', h2, h3, h4⟩ := World.emit_carries_near I L W (World.run_lined hf r) hst
    (World.run_numbered_given hf hn hm r) (made_together hm) (allAhead ops (fun j c rs h => by simp at h) hah) hr
    (made_makes hm) ho e (.of_run e2 hg hset)
  rw [hc.unique (made_together hm) hs h2, hu.unique (made_together hm) h3] at h4
  exact h4.names h1 (hc.sub (made_together hm) hs hu)

theorem AInv.edited_names {w : AWorld} {s : AState} (I : AInv U w s) {V : List JVal}
    (N : Numbered w.base.strs V) (hah : ∀ o ∈ s.js, Spec.JOp.Ahead o) {j k : Nat}
    {md : Bool} {b b2 : World} (ho : Orderly s.t.things (jmade s.js) V (.obj j)) (hs : Steady s.t.things (.obj j))
    {m u : PlacedMarks} (hc : JCarries s.t.things (jmade s.js) (.obj j) m)
    (hu : JUnedited s.t.things (jmade s.js) (.obj j) u) (h1 : OneName u)
    (e : (JOp.sourceAndMap j true md).run w.base = .ok (.pair k, b)) (e2 : World.Lasts k b b2) :
    KeepsNames b2 k m := by
  obtain ⟨A, J⟩ := I.lists.backed.inv
  have hahead : AllAhead (jthings s.js) := allAhead s.js (fun j c rs h => by simp at h) hah
  have T : Together (jmade s.js) (jthings s.js) :=
    together s.js (made := []) (st := []) ⟨rfl, fun j op x h => by simp at h⟩
  rw [← I.things] at ho hs hc hu
  obtain ⟨m', u', h2, h3, h4⟩ := World.emit_carries_near J I.lists.backed.labels I.nodes.base I.nodes.lined
    I.lists.backed.stable N T hahead (fun op h => I.exact op (List.mem_filter.1 h).1)
    (fun op h => (List.mem_filter.1 h).2) ho e e2
  rw [hc.unique T hs h2, hu.unique T h3] at h4
  exact h4.names h1 (hc.sub T hs hu)

/-- The map with columns of an edited object of a program over all classes that gives emitted maps back, with names;
as `C74_given_edited_partial` and `C65_names_partial`. -/
theorem C74_given_edited_names_partial (ops more : List AOp) (hs : List (List JOp)) (w w1 w2 : AWorld) (j k : Nat)
    (module_ : Bool) (m u : PlacedMarks) (r : AWorld.run ops = .ok w) (hf : ∀ op ∈ ops, Spec.AOp.Fit op)
    (h : GivenFrom AWorld.empty ⟨[], []⟩ ops hs) (hw : WellGiven hs) (hah : ∀ o ∈ hs.flatten, Spec.JOp.Ahead o)
    (ho : Orderly (cthings (sourceOps ops)).things (jmade hs.flatten) (gmentions ops hs) (.obj j))
    (hst : Steady (cthings (sourceOps ops)).things (.obj j))
    (hc : JCarries (cthings (sourceOps ops)).things (jmade hs.flatten) (.obj j) m)
    (hu : JUnedited (cthings (sourceOps ops)).things (jmade hs.flatten) (.obj j) u) (hn : OneName u)
    (e : (AOp.c (.js (.sourceAndMap j true module_))).run w = .ok (.c (.js (.pair k)), w1))
    (hm : ∀ o ∈ more, ∀ c, Spec.AOp.onSources o = some c → c.Proper) (hk : ∀ o ∈ more, Spec.AOp.Spares k o)
    (e2 : w1.runFrom more = .ok w2) : KeepsNames w2.base k m := by
  obtain ⟨s, -, I, h1, h2⟩ := GInv.of_run r hf h hw
  have e3 := AWorld.then_lasts I.sound (fun c hc => by cases hc; trivial) e hm hk e2
  obtain ⟨x, h3, h4⟩ := AOp.run_js e
  cases h4
  have N := (GInv.of_run_more r hf h hw).1
  rw [← h1] at ho hst hc hu
  rw [← h2] at ho hah hc hu
  exact I.edited_names N hah ho hst hc hu hn h3 e3

/-! Non-trivial cases: the cut text of the pair in `c66Cut` (what it carries is shown there); and a map with names,
emitted and given back, its code cut through a `CachedSource`. -/

example : Steady (jthings c66Cut) (.obj 7) ∧
    JUnedited (jthings c66Cut) (c66Made ++ [.newReplace (.obj 3)]) (.obj 7) c66Marks ∧ OneName c66Marks :=
  ⟨.replaced (c := .obj 3) (rs := [⟨2, 3, []⟩]) (by decide +kernel) (.leaf rfl),
   .replaced (c := .obj 3) (rs := [⟨2, 3, []⟩]) (by decide +kernel) (.leaf rfl c66_cutMarks), by decide +kernel⟩

/-- The program. -/
def c74Named : List AOp :=
  [.n (.newNode 3 1 (some "h.js".toList) [.str "z".toList]),
   .c (.js (.newSms "abcd\n".toList "s.js".toList (.plain [some "h.js".toList] [] [some "n".toList, some "k".toList]
     "AAAAA,CAAK,CAAIC".toList) none none)),
   .c (.js (.sourceAndMap 0 true true)),
   .c (.js (.newSms "abcd\n".toList "t.js".toList (.emitted 0) none none)), .c (.newCached (.obj 1)),
   .c (.newReplace (.ref (.cached 0))), .c (.js (.replace 2 1 1 []))]

/-- The statements on sources, with the map as it reads. -/
def c74NamedHere : List (List JOp) :=
  [[], [.newSms "abcd\n".toList "s.js".toList (.plain [some "h.js".toList] [] [some "n".toList, some "k".toList]
     "AAAAA,CAAK,CAAIC".toList) none none],
   [],
   [.newSms "abcd\n".toList "t.js".toList (.plain [some "h.js".toList] [] [some "n".toList, some "k".toList]
     "AAAAA,CAAK,CAAIC".toList) none none], [], [.newReplace (.obj 1)], [.replace 2 1 1 []]]

theorem c74Named_given : GivenFrom AWorld.empty ⟨[], []⟩ c74Named c74NamedHere := given_of_check (by decide +kernel)

theorem c74Named_things : (cthings (sourceOps c74Named)).things = [.leaf "abcd\n".toList [], .leaf "abcd\n".toList [],
    .replaced (.obj 1) [⟨1, 1, []⟩]] := by decide +kernel

theorem c74Named_leaf {st : List JThing} : JPlaces st (jmade c74NamedHere.flatten) (.obj 1) c65NamesCode := by
  have e : c65NamesCode = placedBy (told [some "h.js".toList] [some "n".toList, some "k".toList]
      [⟨1, 0, some ⟨0, 1, 0, some 0⟩⟩, ⟨1, 1, some ⟨0, 1, 5, none⟩⟩, ⟨1, 2, some ⟨0, 1, 9, some 1⟩⟩]) (1, 0)
      "abcd\n".toList := by decide +kernel
  rw [e]
  exact .sms (n := "t.js".toList) (cs := []) (mp := "AAAAA,CAAK,CAAIC".toList) (o := none) rfl c65Names_points

example : (∀ op ∈ c74Named, Spec.AOp.Fit op) ∧ WellGiven c74NamedHere ∧
    (∀ o ∈ c74NamedHere.flatten, Spec.JOp.Ahead o) := by
  refine ⟨?_, ?_, ?_⟩
  · intro op ho
    simp only [c74Named, List.mem_cons, List.not_mem_nil, or_false] at ho
    rcases ho with rfl | rfl | rfl | rfl | rfl | rfl | rfl <;>
      refine ⟨fun o h => ?_, fun o h => ?_⟩ <;> cases h
    · exact fun _ => by decide
    · exact ⟨trivial, trivial, by simp [Spec.JOp.Simple],
        fun k l h => by cases h⟩
    · exact ⟨trivial, trivial, trivial, fun k l h => by cases h⟩
    · exact ⟨trivial, trivial, rfl, fun k l h => by cases h⟩
    · refine ⟨?_, by simp [Spec.JOp.FewLines], trivial, fun k l h => by cases h⟩
      simp only [JOp.Proper, Spec.Proper]
      decide +kernel
  · intro h hh o ho
    simp only [c74NamedHere, List.mem_cons, List.not_mem_nil, or_false] at hh
    rcases hh with rfl | rfl | rfl | rfl | rfl | rfl | rfl <;>
      first | (cases ho; done) | cases List.mem_singleton.1 ho
    · exact ⟨⟨⟨_, _, _, _, rfl, _, c65Names_points, by simp [Point.Small], by simp [Point.Lt], by decide +kernel⟩,
        fun i hi => by cases hi⟩, _, _, _, _, rfl, fun _ => by decide +kernel⟩
    · exact ⟨⟨⟨_, _, _, _, rfl, _, c65Names_points, by simp [Point.Small], by simp [Point.Lt], by decide +kernel⟩,
        fun i hi => by cases hi⟩, _, _, _, _, rfl, fun _ => by decide +kernel⟩
    · exact ⟨trivial, trivial⟩
    · exact ⟨trivial, trivial⟩
  · intro o ho
    simp only [c74NamedHere, List.flatten_cons, List.flatten_nil, List.nil_append, List.cons_append, List.mem_cons,
      List.not_mem_nil, or_false] at ho
    rcases ho with rfl | rfl | rfl | rfl <;> first | trivial | (simp only [Spec.JOp.Ahead]; decide +kernel)

example : Steady (cthings (sourceOps c74Named)).things (.obj 2) ∧
    Orderly (cthings (sourceOps c74Named)).things (jmade c74NamedHere.flatten) (gmentions c74Named c74NamedHere)
      (.obj 2) ∧
    JCarries (cthings (sourceOps c74Named)).things (jmade c74NamedHere.flatten) (.obj 2)
      (c63From "a" "h.js" 1 0 (some "n") ++ c63From "cd\n" "h.js" 1 9 (some "k")) ∧
    JUnedited (cthings (sourceOps c74Named)).things (jmade c74NamedHere.flatten) (.obj 2) c65NamesCode ∧
    OneName c65NamesCode := by
  rw [c74Named_things]
  refine ⟨.replaced (c := .obj 1) (rs := [⟨1, 1, []⟩]) rfl (.leaf rfl),
    .forwards (u := c65NamesCode) (.replaced (c := .obj 1) (rs := [⟨1, 1, []⟩]) rfl (.leaf rfl c74Named_leaf))
      (by decide +kernel), ?_, .replaced (c := .obj 1) (rs := [⟨1, 1, []⟩]) rfl (.leaf rfl c74Named_leaf),
    by decide +kernel⟩
  exact .replaced (es := [(⟨1, 1, []⟩, 0)]) (c := .obj 1) (rs := [⟨1, 1, []⟩]) (m := c65NamesCode) rfl
    ⟨.refl _, by simp⟩ (.leaf rfl c74Named_leaf)

example : (answersFrom AWorld.empty (c74Named ++ [.c (.js (.sourceAndMap 2 true true)), .c (.js (.get 1 .source)),
      .c (.js (.get 1 .names)), .c (.js (.get 1 .mappings))])).drop 7 =
    [.c (.js (.pair 1)), .c (.js (.field (.text "acd\n".toList))),
     .c (.js (.field (.list [some "n".toList, some "k".toList]))),
     .c (.js (.field (.text "AAAAA,CAAK,AAAIC".toList)))] := by decide +kernel

end WS
