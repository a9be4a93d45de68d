import Verif.Props.C56
/-!
# C56: `toString()` of list maps

`toString()` of a list map gives single-line nodes only (`C31_exact`). In programs that put nothing but
single-line nodes, and list maps of these, into list maps, it gives the text that is rendered.
-/

namespace WS
open Spec

/-- The statement makes no nodes other than single-line nodes. -/
def Spec.LOp.SinglesOnly : LOp → Prop
  | .newCode s => s = []
  | .newSource s _ _ _ => s = []
  | .newMap (.str s) source _ => s = [] ∧ truthy source = none
  | .fromString .. => False
  | .listMap .. => False
  | .add _ (.str _) _ _ => False
  | .prepend _ (.str _) _ _ => False
  | .mapCode .. => False
  | _ => True

/-- Only single-line nodes. -/
def AllSingle (m : Slm) : Prop := ∀ n ∈ m, ∃ x, n = .single x

def LVal.Singles : LVal → Prop
  | .dead => True
  | .broken => True
  | .single _ => True
  | .map m => AllSingle m
  | _ => False

def LWorld.Singles (w : LWorld) : Prop := ∀ v ∈ w.lists, v.Singles

theorem LWorld.Singles.put {w : LWorld} (W : w.Singles) {v : LVal} (h : v.Singles) : (w.put v).Singles :=
  fun x hx => (List.mem_append.1 hx).elim (W x) fun e => (List.mem_singleton.1 e) ▸ h

theorem LWorld.Singles.of {w w' : LWorld} (W : w.Singles) (h : w'.lists = w.lists) : w'.Singles :=
  fun x hx => W x (h ▸ hx)

/-- What is put in from an object. -/
def LNode.Singles : LNode → Prop
  | .single _ => True
  | .map m => AllSingle m
  | _ => False

theorem LWorld.Singles.node {w : LWorld} (W : w.Singles) {i : Nat} {n : LNode}
    (h : w.node (.obj i) = .ok n) : n.Singles := by
  simp only [LWorld.node] at h
  split at h
  · cases h
  · cases h
  · cases h
  · rename_i e; exact absurd (W _ (List.mem_of_getElem? e)) (fun h => h)
  · rename_i e; exact absurd (W _ (List.mem_of_getElem? e)) (fun h => h)
  · cases h; trivial
  · rename_i e; cases h; exact W _ (List.mem_of_getElem? e)

theorem LWorld.Singles.set {w : LWorld} (W : w.Singles) (i : Nat) {m : Slm} (h : AllSingle m) :
    LWorld.Singles { w with lists := w.lists.set i (.map m) } :=
  fun x hx => (List.mem_or_eq_of_mem_set hx).elim (W x) fun e => e ▸ h

theorem LWorld.Singles.target {w : LWorld} (W : w.Singles) {i : Nat} {m : Slm} (h : w.target i = .ok m) :
    AllSingle m := W _ (List.mem_of_getElem? (LWorld.target_some h))

theorem liftM_ok {α : Type} {x : M α} {a : α} (h : liftM x = .ok a) : x = .ok a := by
  cases x with
  | error p => cases h
  | ok b => cases h; rfl

theorem AllSingle.append {a b : Slm} (h : AllSingle a) (h' : AllSingle b) : AllSingle (a ++ b) :=
  fun n hn => (List.mem_append.1 hn).elim (h n) (h' n)

theorem LWorld.Singles.add {w w' : LWorld} (W : w.Singles) {i j : Nat} {s : Option Str} {o : JVal}
    (e : w.add i (.obj j) s o = .ok w') : w'.Singles := by
  simp only [LWorld.add, Except.bind_ok_iff, Except.map_ok_iff] at e
  obtain ⟨n, h1, m, h2, m', h3, rfl⟩ := e
  have W1 := W.of (w.names_lists s o)
  refine W1.set i ?_
  have hn := W.node h1
  have hm := W1.target h2
  have h3 := liftM_ok h3
  cases n with
  | single x => cases h3; exact hm.append (by intro n hn; simp at hn; exact ⟨x, hn⟩)
  | map ch => cases h3; exact hm.append hn
  | _ => cases hn

theorem LWorld.Singles.prepend {w w' : LWorld} (W : w.Singles) {i j : Nat} {s : Option Str} {o : JVal}
    (e : w.prepend i (.obj j) s o = .ok w') : w'.Singles := by
  simp only [LWorld.prepend, Except.bind_ok_iff, Except.map_ok_iff] at e
  obtain ⟨n, h1, m, h2, m', h3, rfl⟩ := e
  have W1 := W.of (w.names_lists s o)
  refine W1.set i ?_
  have hn := W.node h1
  have hm := W1.target h2
  have h3 := liftM_ok h3
  cases n with
  | single x =>
    cases h3
    exact AllSingle.append (a := [.single x]) (by intro n hn; simp at hn; exact ⟨x, hn⟩) hm
  | map ch => cases h3; exact AllSingle.append hn hm
  | _ => cases hn

theorem LWorld.Singles.run {w w' : LWorld} (W : w.Singles) {op : LOp} {a : LAnswer}
    (ho : Spec.LOp.SinglesOnly op) (r : op.run w = .ok (a, w')) : w'.Singles := by
  cases op with
  | js op =>
    simp only [LOp.run] at r
    split at r
    · cases r
    · cases r; exact W.of rfl
  | newCode s =>
    have ho : s = [] := ho
    subst ho
    cases r
    exact W.put trivial
  | newSource s source original line =>
    have ho : s = [] := ho
    subst ho
    cases r
    exact W.put trivial
  | newSingle s source original line =>
    simp only [LOp.run] at r
    split at r
    · cases r; exact W.put trivial
    · split at r
      · cases r
      · cases r; exact (W.of (w.names_lists _ _)).put trivial
  | newEmpty => cases r; exact W.put (fun n hn => by cases hn)
  | newMap x source original =>
    simp only [LOp.run] at r
    split at r
    · cases r; exact W.put (fun n hn => by cases hn)
    · rename_i hne
      cases x with
      | str s => exact absurd ⟨by rw [ho.1], ho.2⟩ hne
      | obj j =>
        simp only [Except.map_ok_iff] at r
        obtain ⟨w2, h1, h2⟩ := r
        cases h2
        simp only [Except.bind_ok_iff] at h1
        obtain ⟨-, -, h1⟩ := h1
        exact (W.put (v := .map []) (fun n hn => by cases hn)).add h1
  | newArray as =>
    simp only [LOp.run, Except.map_ok_iff] at r
    obtain ⟨_, -, h2⟩ := r
    cases h2
    exact W.put trivial
  | fromString code sources contents names mappings => cases ho
  | listMap j c md => cases ho
  | add i x source original =>
    cases x with
    | str s => cases ho
    | obj j =>
      simp only [LOp.run, Except.map_ok_iff] at r
      obtain ⟨w2, h1, h2⟩ := r
      cases h2
      exact W.add h1
  | prepend i x source original =>
    cases x with
    | str s => cases ho
    | obj j =>
      simp only [LOp.run, Except.map_ok_iff] at r
      obtain ⟨w2, h1, h2⟩ := r
      cases h2
      exact W.prepend h1
  | clone i => cases r
  | mapCode i f => cases ho
  | toString i =>
    simp only [LOp.run, Except.map_ok_iff] at r
    obtain ⟨_, -, h2⟩ := r
    cases h2
    exact W
  | render i =>
    simp only [LOp.run, Except.map_ok_iff] at r
    obtain ⟨_, -, h2⟩ := r
    cases h2
    exact W.of rfl

theorem LWorld.Singles.runFrom : ∀ {ops : List LOp} {w w' : LWorld}, w.Singles →
    (∀ op ∈ ops, Spec.LOp.SinglesOnly op) → w.runFrom ops = .ok w' → w'.Singles
  | [], w, w', W, _, r => by cases r; exact W
  | op :: ops, w, w', W, ho, r => by
    simp only [LWorld.runFrom] at r
    split at r
    · cases r
    · rename_i h1
      have := LWorld.Singles.runFrom (ops := ops) (W.run (ho op (by simp)) h1)
        (fun o h => ho o (by simp [h])) r
      exact this

/-- In programs with single-line nodes only, `toString()` gives the described text, and changes nothing.
Missing: other nodes, whose text `toString()` leaves out (`C31_exact`). -/
theorem C56_toString_partial (ops : List LOp) (w w1 : LWorld) (i : Nat) (t : Str) (d : LDesc)
    (r : LWorld.run ops = .ok w) (ho : ∀ op ∈ ops, Spec.LOp.SinglesOnly op)
    (hd : (descriptions ops)[i]? = some (some d)) (e : (LOp.toString i).run w = .ok (.text t, w1)) :
    t = d.marks.map Prod.fst ∧ w1 = w := by
  have F := Fits.of_run r
  simp only [LOp.run, Except.map_ok_iff] at e
  obtain ⟨m, h1, h2⟩ := e
  cases h2
  refine ⟨?_, rfl⟩
  have W : w.Singles := LWorld.Singles.runFrom (fun v hv => by cases hv) ho r
  have good := F.good i _ d (LWorld.target_some h1) hd m rfl
  rw [C31_toString_partial m none fun n hn => .inl (W.target h1 n hn),
    (C12_segments_partial m none good.ok).2, good.named.eq, List.map_map, ← piecesMarks_fst]
  rfl

/-- A program with single-line nodes. -/
def c56Singles : List LOp :=
  [.newSingle "a é\n".toList (some "f.js".toList) none 3, .newSingle "b".toList (some "g.js".toList) none 1,
   .newEmpty, .add 2 (.obj 0) none none, .newMap (.obj 1) none none, .add 2 (.obj 3) none none,
   .prepend 2 (.obj 1) none none]

example : (∀ op ∈ c56Singles, Spec.LOp.SinglesOnly op) ∧
    ((descriptions c56Singles)[2]?.join.map fun d => d.marks.map Prod.fst) = some "ba é\nb".toList ∧
    ((LWorld.run c56Singles).toOption.bind fun w => ((LOp.toString 2).run w).toOption.map Prod.fst) =
      some (.text "ba é\nb".toList) := by
  refine ⟨?_, by decide +kernel, by decide +kernel⟩
  simp [c56Singles, Spec.LOp.SinglesOnly]

end WS
