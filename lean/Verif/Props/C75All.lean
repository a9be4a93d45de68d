import Verif.Props.C74
import Verif.Props.C75Least
/-!
# C75 in programs that use all the classes

The same for pairs emitted in programs with `CachedSource`s, `SourceNode`s and list maps, and for the maps that
`CachedSource`s return, which may have been made earlier.
-/

namespace WS
open Spec

theorem AOp.run_positive {w w' : AWorld} {t : CThings} (S : w.c.Sound t) (H : Heap.In posDom w.base.heap) {op : AOp}
    (hs : Spec.AOp.Suited op) {a : AAnswer} (e : op.run w = .ok (a, w')) : Heap.In posDom w'.base.heap := by
  cases hc : Spec.AOp.onSources op with
  | some c =>
    obtain ⟨x, v, h1, rfl⟩ := AOp.run_onSources hc e
    obtain ⟨tr, h2, h3⟩ := COp.run_trace S h1
    refine World.runFrom_positive H h2 (forall_loud quiet_exact h3 fun o ho => ?_)
    cases c with
    | js p =>
      simp only [COp.plain] at ho
      split at ho
      · cases ho
      · cases List.mem_singleton.1 ho
        exact (hs.1 _ hc).2.2.2
    | newPrefix p y => cases List.mem_singleton.1 ho; trivial
    | newReplace y => cases List.mem_singleton.1 ho; trivial
    | newConcat ys => cases List.mem_singleton.1 ho; trivial
    | add j y => cases List.mem_singleton.1 ho; trivial
    | _ => cases ho
  | none =>
    rcases AOp.run_others hc e with ⟨o, x, v, hj, h, rfl, -⟩ | ⟨o, x, v, hj, h, rfl, -⟩
    · exact (NOp.run_calm (w := w.n) hj h).heap _ H
    · exact (LOp.run_calm (w := w.l) hj h).heap _ H

theorem AWorld.runFrom_positive : ∀ {ops : List AOp} {w w' : AWorld} {t : CThings}, w.c.Sound t →
    Heap.In posDom w.base.heap → (∀ op ∈ ops, Spec.AOp.Suited op) → w.runFrom ops = .ok w' →
    Heap.In posDom w'.base.heap
  | [], _, _, _, _, H, _, e => by cases e; exact H
  | op :: ops, w, w', t, S, H, hs, e => by
    simp only [AWorld.runFrom, Except.bind_ok_iff] at e
    obtain ⟨⟨a, w1⟩, h1, h2⟩ := e
    have S1 := AWorld.runFrom_sound (ops := [op]) (w' := w1) S
      (fun o ho => by cases List.mem_singleton.1 ho; exact Suited.proper (hs op (by simp)))
      (by simp [AWorld.runFrom, h1, Except.bind])
    exact AWorld.runFrom_positive S1 (AOp.run_positive S H (hs op (by simp)) h1) (fun o ho => hs o (by simp [ho])) h2

theorem AWorld.run_positive {ops : List AOp} {w : AWorld} (r : AWorld.run ops = .ok w)
    (hs : ∀ op ∈ ops, Spec.AOp.Suited op) : Heap.In posDom w.base.heap :=
  AWorld.runFrom_positive (w := .empty) AWorld.empty_sound
    (fun i o h => by simp [AWorld.empty, World.empty] at h) hs r

theorem AInv.exactly {w : AWorld} {ops : List AOp} {s : AState} (I : AInv U w s) (h : TellsAll .start ops s)
    (H : Heap.In posDom w.base.heap) {j k : Nat}
    {md : Bool} {b b2 : World} (hu : Unreplaced (cthings (sourceOps ops)).things false (.obj j))
    (e : (JOp.sourceAndMap j true md).run w.base = .ok (.pair k, b)) (e2 : World.Lasts k b b2) :
    ∃ m, JPlaces (cthings (sourceOps ops)).things (jmade (cplain (sourceOps ops))) (.obj j) m ∧
      ShowsExactly b2 k m := by
  obtain ⟨h3, h4⟩ := TellsAll.sources h
  obtain ⟨A, J⟩ := I.lists.backed.inv
  rw [← h3] at hu ⊢
  rw [← h4, ← I.things] at *
  exact World.emit_exact J I.lists.backed.labels I.nodes.base I.nodes.lined H I.lists.backed.stable
    (fun op h => I.exact op (List.mem_filter.1 h).1) (fun op h => (List.mem_filter.1 h).2) hu e e2

/-- C75 in programs over all classes: the pair of an object without `ReplaceSource` and empty strings is exactly the
smallest one that says what the object says. Missing: what is missing in `C75_partial`. -/
theorem C75_all_partial (ops more : List AOp) (w w1 w2 : AWorld) (j k : Nat) (module_ : Bool)
    (r : AWorld.run ops = .ok w) (hs : ∀ op ∈ ops, Spec.AOp.Suited op)
    (hu : Unreplaced (cthings (sourceOps ops)).things false (.obj j))
    (e : (AOp.c (.js (.sourceAndMap j true module_))).run w = .ok (.c (.js (.pair k)), w1))
    (hm : ∀ o ∈ more, ∀ c, Spec.AOp.onSources o = some c → c.Proper) (hk : ∀ o ∈ more, Spec.AOp.Spares k o)
    (e2 : w1.runFrom more = .ok w2) :
    ∃ m, JPlaces (cthings (sourceOps ops)).things (jmade (cplain (sourceOps ops))) (.obj j) m ∧
      ShowsExactly w2.base k m := by
  obtain ⟨s, h, I⟩ := AInv.of_run r hs
  have e3 := AWorld.then_lasts I.sound (fun c hc => by cases hc; trivial) e hm hk e2
  obtain ⟨x, h1, h2⟩ := AOp.run_js e
  cases h2
  exact I.exactly h (AWorld.run_positive r hs) hu h1 e3

/-- C75 for a map with columns that a `CachedSource` returns: it is exactly the smallest one that says what the
object said when the map was made. -/
theorem C75_cached_partial (lo ops more : List AOp) (w w1 w2 : AWorld) (op : AOp) (x : AAnswer) (k m : Nat)
    (o : Option JOpts) (hs : ∀ op ∈ lo ++ ops, Spec.AOp.Suited op)
    (hm : ∀ o ∈ more, ∀ c, Spec.AOp.onSources o = some c → c.Proper) (hlo : ∀ op ∈ lo, Spec.AOp.asked op = none)
    (r : AWorld.run (lo ++ ops) = .ok w) (ha : Spec.AOp.asked op = some (k, o)) (hc : asksColumns o = true)
    (e : op.run w = .ok (x, w1)) (hx : Spec.AAnswer.theMap x = some (some m))
    (hk : ∀ o ∈ ops ++ more, Spec.AOp.Spares m o) (e2 : w1.runFrom more = .ok w2) :
    ∃ j a rest, ops = a ++ rest ∧ (cthings (sourceOps (lo ++ ops))).stands[k]? = some j ∧
      (Unreplaced (cthings (sourceOps (lo ++ a))).things false (.obj j) →
        ∃ mk, JPlaces (cthings (sourceOps (lo ++ a))).things (jmade (cplain (sourceOps (lo ++ a)))) (.obj j) mk ∧
          ShowsExactly w2.base m mk) := by
  obtain ⟨j, a, rest, u, c, md, b1, h1, h2, h3, h4, h5, h6⟩ := AWorld.origin lo ops more w w1 w2 op x k m o
    (fun q hq => by
      rcases List.mem_append.1 hq with hq | hq
      · exact Suited.proper (hs q hq)
      · exact hm q hq) hlo r ha e hx hk e2
  refine ⟨j, a, rest, h1, h2, fun hu => ?_⟩
  obtain rfl : c = true := by rcases h4 with ⟨h, -⟩ | ⟨h, -⟩ <;> simp [h, hc]
  have hs' : ∀ q ∈ lo ++ a, Spec.AOp.Suited q := fun q hq => hs q (by
    rcases List.mem_append.1 hq with hq | hq <;> simp [h1, hq])
  obtain ⟨s, h, I⟩ := AInv.of_run h3 hs'
  exact I.exactly h (AWorld.run_positive h3 hs') hu h5 h6

/-! Non-trivial case: the program of C74, whose other hypotheses are shown there; the `PrefixSource` of a `CachedSource`,
and the map the `CachedSource` keeps. -/

/-- What it says of the prefixed object. -/
def c75Prefixed : PlacedMarks :=
  c63From "> a;" "a.js" 1 0 none ++ c63From "b\n" "a.js" 1 2 none ++ c63From "> c" "a.js" 2 0 none

example : Unreplaced (cthings (sourceOps c74Program)).things false (.obj 1) ∧
    encode (segsOf c75Prefixed) = "AAAA,IAAE;AACF".toList ∧ filesOf c75Prefixed = [some "a.js".toList] := by
  refine ⟨?_, by decide +kernel⟩
  rw [show (cthings (sourceOps c74Program)).things =
    [.leaf "a;b\nc".toList [], .prefixed "> ".toList (.obj 0)] by decide +kernel]
  exact .prefixed rfl (.leaf rfl)
example : (answersFrom AWorld.empty (c74Program ++ [.c (.both 0 none), .c (.js (.get 0 .mappings)),
      .c (.js (.sourceAndMap 1 true true)), .c (.js (.get 1 .mappings)), .c (.js (.get 1 .sources))])).drop 11 =
    [.c (.both "a;b\nc".toList (some 0)), .c (.js (.field (.text "AAAA,EAAE;AACF".toList))),
     .c (.js (.pair 1)), .c (.js (.field (.text "AAAA,IAAE;AACF".toList))),
     .c (.js (.field (.list [some "a.js".toList])))] := by decide +kernel
example : Spec.AOp.asked (.c (.both 0 none)) = some (0, none) ∧ asksColumns none = true ∧
    encode (segsOf (ownPlaces (some "a.js".toList) (1, 0) (segments "a;b\nc".toList))) = "AAAA,EAAE;AACF".toList := by
  decide +kernel

end WS
