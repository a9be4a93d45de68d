import Verif.Model.Tree
import Verif.Proofs.Sms
/-! # Objects without read-induced state

The reads of `Verif/Model/Heap.lean` change objects: they sort the requests of a `ReplaceSource`
and fill the caches of a `SourceMapSource`. `AObj` keeps only what the caller asked for (calls in
call order, the `SourceMapSource` as constructed); the readers below never write. The lemmas show
that the reads of the model compute them. -/

namespace WS

/-- `Obj` (`src/source.rs:16-25`) without state written by reads. -/
inductive AObj where
  | raw (value : Str)
  | original (value : Str) (name valueIdx : Int)
  | l2l (value : Str) (name original : Int)
  | sms (s : Sms)
  | prefixed (pre : Str) (child : Src)
  | replace (child : Src) (calls : List Call)
  | concat (children : List Src)

/-- All objects. -/
abbrev AHeap := List AObj

/-- The object `o` is `a` after some reads. -/
inductive AbsObj : AObj → Obj → Prop where
  | raw v : AbsObj (.raw v) (.raw v)
  | original v n i : AbsObj (.original v n i) (.original v n i)
  | l2l v n o : AbsObj (.l2l v n o) (.l2l v n o)
  | sms {s₀ s} : Sms.Reads s₀ s → AbsObj (.sms s₀) (.sms s)
  | prefixed p c : AbsObj (.prefixed p c) (.prefixed p c)
  | replace {c cs rs b} : ReplSim cs rs b → AbsObj (.replace c cs) (.replace c rs b)
  | concat cs : AbsObj (.concat cs) (.concat cs)

/-- The heap `h` is `A` after some reads. -/
def Abs (A : AHeap) (h : Heap) : Prop :=
  A.length = h.length ∧ ∀ (i : Nat) (a : AObj) (o : Obj), A[i]? = some a → h[i]? = some o → AbsObj a o

theorem Abs.getNone {A : AHeap} {h : Heap} (H : Abs A h) {i : Nat} (e : A[i]? = none) :
    h[i]? = none := by
  rw [List.getElem?_eq_none_iff] at *; rw [← H.1]; exact e

theorem Abs.getSome {A : AHeap} {h : Heap} (H : Abs A h) {i : Nat} {a : AObj} (e : A[i]? = some a) :
    ∃ o, h[i]? = some o ∧ AbsObj a o := by
  have hi : i < h.length := by
    rw [← H.1]; exact (List.getElem?_eq_some_iff.1 e).1
  exact ⟨h[i], List.getElem?_eq_getElem hi, H.2 i a _ e (List.getElem?_eq_getElem hi)⟩

theorem Abs.set {A : AHeap} {h : Heap} (H : Abs A h) {i : Nat} {a : AObj} {o : Obj}
    (e : A[i]? = some a) (ho : AbsObj a o) : Abs A (h.set i o) := by
  refine ⟨by simp [H.1], ?_⟩
  intro j b p hb hp
  rw [List.getElem?_set] at hp
  split at hp
  · rename_i hij
    subst hij
    split at hp
    · injection hp with hp; subst hp
      rw [e] at hb; injection hb with hb; subst hb; exact ho
    · cases hp
  · exact H.2 j b p hb hp

theorem Abs.setBoth {A : AHeap} {h : Heap} (H : Abs A h) {i : Nat} {a : AObj} {o : Obj}
    (ho : AbsObj a o) : Abs (A.set i a) (h.set i o) := by
  refine ⟨by simp [H.1], ?_⟩
  intro j b p hb hp
  rw [List.getElem?_set] at hb hp
  by_cases hij : i = j
  · simp only [hij, if_true] at hb hp
    split at hp
    · split at hb
      · cases hp; cases hb; exact ho
      · cases hb
    · cases hp
  · simp only [hij, if_false] at hb hp
    exact H.2 j b p hb hp

theorem Abs.push {A : AHeap} {h : Heap} (H : Abs A h) {a : AObj} {o : Obj} (ho : AbsObj a o) :
    Abs (A ++ [a]) (h ++ [o]) := by
  refine ⟨by simp [H.1], ?_⟩
  intro j b p hb hp
  rw [List.getElem?_append] at hb hp
  rw [H.1] at hb
  split at hp
  · rename_i hj
    simp only [hj, if_true] at hb
    exact H.2 j b p hb hp
  · rename_i hj
    simp only [hj, if_false] at hb
    rcases Nat.eq_zero_or_pos (j - h.length) with h0 | h0
    · rw [h0] at hb hp
      simp at hb hp; subst hb; subst hp; exact ho
    · obtain ⟨k, hk⟩ := Nat.exists_eq_succ_of_ne_zero (Nat.pos_iff_ne_zero.1 h0)
      rw [hk] at hb; simp at hb

/-- Reading the children one after the other. -/
def eachA {α : Type _} (f : Src → M α) : List Src → M (List α)
  | [] => .ok []
  | c :: cs => (f c).bind fun a => (eachA f cs).map (a :: ·)

/-- `hSource` without writes. -/
def aSource : Nat → AHeap → List Nat → Src → M Str
  | 0, _, _, _ => .error .fuel
  | _ + 1, _, _, .str s => .ok s
  | fuel + 1, h, busy, .ref i =>
    if i ∈ busy then .error .borrow
    else match h[i]? with
      | none => .error .dangling
      | some (.raw v) => .ok v
      | some (.original v _ _) => .ok v
      | some (.l2l v _ _) => .ok v
      | some (.sms s) => .ok s.value
      | some (.prefixed p c) => (aSource fuel h (i :: busy) c).map fun s => makePrefixed s p true
      | some (.replace c cs) =>
        (aSource fuel h (i :: busy) c).bind fun s => replaceString s (sortedCalls cs)
      | some (.concat cs) => (eachA (aSource fuel h (i :: busy)) cs).map List.flatten

/-- `hSize` without writes. -/
def aSize : Nat → AHeap → List Nat → Src → M Nat
  | 0, _, _, _ => .error .fuel
  | _ + 1, _, _, .str s => .ok (blen s)
  | fuel + 1, h, busy, .ref i =>
    if i ∈ busy then .error .borrow
    else match h[i]? with
      | some (.concat cs) => (eachA (aSize fuel h (i :: busy)) cs).map List.sum
      | _ => (aSource (fuel + 1) h busy (.ref i)).map blen

/-- `hNode` without writes. -/
def aNode (columns module_ : Bool) : Nat → AHeap → List Nat → Src → M SmNode
  | 0, _, _, _ => .error .fuel
  | _ + 1, _, _, .str _ => .error .unreachable
  | fuel + 1, h, busy, .ref i =>
    if i ∈ busy then .error .borrow
    else match h[i]? with
      | none => .error .dangling
      | some (.raw v) => .ok (rawNode v)
      | some (.original v name vi) => .ok (originalNode columns v name vi)
      | some (.l2l v name orig) => .ok (l2lNode v name orig)
      | some (.sms s) => s.node.map Prod.fst
      | some (.prefixed p c) => (aNode columns module_ fuel h (i :: busy) c).map (prefixNode p)
      | some (.replace c cs) =>
        (aNode columns module_ fuel h (i :: busy) c).bind fun n => replaceNode n (sortedCalls cs)
      | some (.concat cs) => (eachA (fun c => match c with
          | .str s => .ok (.str s)
          | .ref j => aNode columns module_ fuel h (i :: busy) (.ref j)) cs).map
            (SmNode.mkVec none none none)

/-- `hListMap` without writes. -/
def aListMap (columns module_ : Bool) : Nat → AHeap → List Nat → Src → M Slm
  | 0, _, _, _ => .error .fuel
  | _ + 1, _, _, .str _ => .error .unreachable
  | fuel + 1, h, busy, .ref i =>
    if i ∈ busy then .error .borrow
    else match h[i]? with
      | none => .error .dangling
      | some (.raw v) => .ok (rawListMap v)
      | some (.original v name vi) => .ok (originalListMap v name vi)
      | some (.l2l v name orig) => .ok (l2lListMap v name orig)
      | some (.sms s) => (s.listMap module_).map Prod.fst
      | some (.prefixed p c) =>
        (aListMap columns module_ fuel h (i :: busy) c).map (prefixListMap p)
      | some (.replace c cs) =>
        (aListMap columns module_ fuel h (i :: busy) c).map fun m => replaceListMap m (sortedCalls cs)
      | some (.concat cs) => (eachA (fun c => match c with
          | .str s => .ok (.inl s)
          | .ref j => (aListMap columns module_ fuel h (i :: busy) (.ref j)).map Sum.inr) cs).map
            (concatMaps [])

/-- The read `f` of the heap computes `r` and leaves the heap as it is up to read state. -/
def Computes {α : Type _} (A : AHeap) (f : M (α × Heap)) (r : M α) : Prop :=
  ∃ h', Abs A h' ∧ f = r.map fun a => (a, h')

theorem Computes.error {α : Type _} {A : AHeap} {h : Heap} (H : Abs A h) (e : Panic) :
    Computes (α := α) A (.error e) (.error e) := ⟨h, H, rfl⟩

theorem Computes.ok {α : Type _} {A : AHeap} {h : Heap} (H : Abs A h) (a : α) :
    Computes A (.ok (a, h)) (.ok a) := ⟨h, H, rfl⟩

theorem Computes.each {α : Type _} {A : AHeap} {f : Heap → Src → M (α × Heap)} {g : Src → M α}
    (hf : ∀ h c, Abs A h → Computes A (f h c) (g c)) (cs : List Src) (h : Heap) (H : Abs A h) :
    Computes A (eachChild f h cs) (eachA g cs) := by
  induction cs generalizing h with
  | nil => exact .ok H _
  | cons c cs ih =>
    obtain ⟨h1, H1, e1⟩ := hf h c H
    simp only [eachChild, eachA, e1]
    cases hg : g c with
    | error e => exact .error H e
    | ok a =>
      obtain ⟨h2, H2, e2⟩ := ih h1 H1
      simp only [Except.map, Except.bind]
      rw [e2]
      cases eachA g cs with
      | error e => exact .error H e
      | ok as => exact .ok H2 _

theorem Sms.listMap_value {s s' : Sms} {b m} (h : s.listMap b = .ok (m, s')) :
    s'.value = s.value := by
  unfold Sms.listMap at h
  split at h
  · injection h with h; injection h with _ h; rw [← h]
  · split at h
    · cases h
    · split at h
      · cases h
      · injection h with h; injection h with _ h; rw [← h]

theorem Sms.Reads.value {s₀ s : Sms} (h : Sms.Reads s₀ s) : s.value = s₀.value := by
  induction h with
  | refl => rfl
  | node _ h ih => exact (Sms.node_value h).trans ih
  | listMap _ h ih => exact (Sms.listMap_value h).trans ih

/-- `source` on the heap. -/
theorem hSource_computes (A : AHeap) (fuel : Nat) (h : Heap) (busy : List Nat) (src : Src)
    (H : Abs A h) : Computes A (hSource fuel h busy src) (aSource fuel A busy src) := by
  induction fuel generalizing h busy src with
  | zero => exact .error H _
  | succ fuel ih =>
    cases src with
    | str s => exact .ok H _
    | ref i =>
      simp only [hSource, aSource]
      split
      · exact .error H _
      · cases hA : A[i]? with
        | none => rw [H.getNone hA]; exact .error H _
        | some a =>
          obtain ⟨o, ho, hao⟩ := H.getSome hA
          rw [ho]
          cases hao with
          | raw v => exact .ok H _
          | original v n k => exact .ok H _
          | l2l v n k => exact .ok H _
          | sms hr => simp only [hr.value]; exact .ok H _
          | prefixed p c =>
            obtain ⟨h1, H1, e1⟩ := ih h (i :: busy) c H
            simp only [e1]
            cases aSource fuel A (i :: busy) c with
            | error e => exact .error H e
            | ok s => exact .ok H1 _
          | @replace c cs rs b hsim =>
            obtain ⟨h1, H1, e1⟩ := ih h (i :: busy) c H
            simp only [e1]
            cases aSource fuel A (i :: busy) c with
            | error e => exact .error H e
            | ok s =>
              simp only [Except.map, Except.bind, hsim.sorted, replaceString_eq, sortedCalls]
              exact .ok (H1.set hA (.replace (by have := hsim.afterSort; rwa [hsim.sorted] at this))) _
          | concat cs =>
            obtain ⟨h1, H1, e1⟩ := Computes.each (fun h c H => ih h (i :: busy) c H) cs h H
            simp only [e1]
            cases eachA (aSource fuel A (i :: busy)) cs with
            | error e => exact .error H e
            | ok s => exact .ok H1 _

/-- `size` on the heap. -/
theorem hSize_computes (A : AHeap) (fuel : Nat) (h : Heap) (busy : List Nat) (src : Src)
    (H : Abs A h) : Computes A (hSize fuel h busy src) (aSize fuel A busy src) := by
  induction fuel generalizing h busy src with
  | zero => exact .error H _
  | succ fuel ih =>
    cases src with
    | str s => exact .ok H _
    | ref i =>
      have hs := hSource_computes A (fuel + 1) h busy (.ref i) H
      simp only [hSize, aSize]
      split
      · exact .error H _
      · rename_i hb
        cases hA : A[i]? with
        | none => rw [H.getNone hA]; simp only [aSource, hb, hA, if_false]; exact .error H _
        | some a =>
          obtain ⟨o, ho, hao⟩ := H.getSome hA
          rw [ho]
          cases hao with
          | raw v => simp only [aSource, hb, hA, if_false]; exact .ok H _
          | original v n k => simp only [aSource, hb, hA, if_false]; exact .ok H _
          | l2l v n k => simp only [aSource, hb, hA, if_false]; exact .ok H _
          | sms hr => simp only [aSource, hb, hA, if_false, hr.value]; exact .ok H _
          | prefixed p c =>
            obtain ⟨h1, H1, e1⟩ := hs
            simp only [e1]
            cases aSource (fuel + 1) A busy (.ref i) with
            | error e => exact .error H e
            | ok s => exact .ok H1 _
          | @replace c cs rs b hsim =>
            obtain ⟨h1, H1, e1⟩ := hs
            simp only [e1]
            cases aSource (fuel + 1) A busy (.ref i) with
            | error e => exact .error H e
            | ok s => exact .ok H1 _
          | concat cs =>
            obtain ⟨h1, H1, e1⟩ := Computes.each (fun h c H => ih h (i :: busy) c H) cs h H
            simp only [e1]
            cases eachA (aSize fuel A (i :: busy)) cs with
            | error e => exact .error H e
            | ok s => exact .ok H1 _

/-- Every `SourceMapSource` answers independently of earlier reads. -/
def AHeap.Stable (A : AHeap) : Prop := ∀ (i : Nat) (s : Sms), A[i]? = some (.sms s) → s.Stable

/-- `node` on the heap. -/
theorem hNode_computes (A : AHeap) (hst : A.Stable) (cols mod : Bool) (fuel : Nat) (h : Heap)
    (busy : List Nat) (src : Src) (H : Abs A h) :
    Computes A (hNode cols mod fuel h busy src) (aNode cols mod fuel A busy src) := by
  induction fuel generalizing h busy src with
  | zero => exact .error H _
  | succ fuel ih =>
    cases src with
    | str s => exact .error H _
    | ref i =>
      simp only [hNode, aNode]
      split
      · exact .error H _
      · cases hA : A[i]? with
        | none => rw [H.getNone hA]; exact .error H _
        | some a =>
          obtain ⟨o, ho, hao⟩ := H.getSome hA
          rw [ho]
          cases hao with
          | raw v => exact .ok H _
          | original v n k => exact .ok H _
          | l2l v n k => exact .ok H _
          | @sms s₀ s hr =>
            have := (Sms.reads_same (hst i s₀ hA) hr).node
            simp only [← this]
            cases hn : s.node with
            | error e => exact .error H e
            | ok q =>
              obtain ⟨n, s'⟩ := q
              exact .ok (H.set hA (.sms (.node hr hn))) _
          | prefixed p c =>
            obtain ⟨h1, H1, e1⟩ := ih h (i :: busy) c H
            simp only [e1]
            cases aNode cols mod fuel A (i :: busy) c with
            | error e => exact .error H e
            | ok s => exact .ok H1 _
          | @replace c cs rs b hsim =>
            simp only [hsim.sorted]
            obtain ⟨h1, H1, e1⟩ := ih (h.set i (.replace c (sortBy Repl.le (tag 0 cs)) true))
              (i :: busy) c
              (H.set hA (.replace (by have := hsim.afterSort; rwa [hsim.sorted] at this)))
            simp only [e1]
            cases aNode cols mod fuel A (i :: busy) c with
            | error e => exact .error H e
            | ok s =>
              simp only [Except.map, Except.bind, sortedCalls]
              cases replaceNode s (sortBy Repl.le (tag 0 cs)) with
              | error e => exact .error H e
              | ok n => exact .ok H1 _
          | concat cs =>
            dsimp only
            generalize hx : eachChild _ h cs = x
            generalize hy : eachA _ cs = y
            have hc : Computes A x y := by
              rw [← hx, ← hy]
              refine Computes.each ?_ cs h H
              intro h c H
              cases c with
              | str s => exact .ok H _
              | ref j => exact ih h (i :: busy) (.ref j) H
            obtain ⟨h1, H1, e1⟩ := hc
            rw [e1]
            cases y with
            | error e => exact .error H e
            | ok s => exact .ok H1 _

/-- The list maps of every `SourceMapSource` are independent of earlier reads. -/
def AHeap.Steady (A : AHeap) (mod : Bool) : Prop := ∀ (i : Nat) (s₀ : Sms), A[i]? = some (.sms s₀) →
  ∀ s, Sms.Reads s₀ s → (s.listMap mod).map Prod.fst = (s₀.listMap mod).map Prod.fst

theorem AHeap.Stable.steady {A : AHeap} (h : A.Stable) (mod : Bool) : A.Steady mod :=
  fun i s₀ hi _ hr => (Sms.reads_same (h i s₀ hi) hr).listMap mod

/-- `list_map` on the heap. -/
theorem hListMap_steady (A : AHeap) (cols mod : Bool) (hst : A.Steady mod) (fuel : Nat) (h : Heap)
    (busy : List Nat) (src : Src) (H : Abs A h) :
    Computes A (hListMap cols mod fuel h busy src) (aListMap cols mod fuel A busy src) := by
  induction fuel generalizing h busy src with
  | zero => exact .error H _
  | succ fuel ih =>
    cases src with
    | str s => exact .error H _
    | ref i =>
      simp only [hListMap, aListMap]
      split
      · exact .error H _
      · cases hA : A[i]? with
        | none => rw [H.getNone hA]; exact .error H _
        | some a =>
          obtain ⟨o, ho, hao⟩ := H.getSome hA
          rw [ho]
          cases hao with
          | raw v => exact .ok H _
          | original v n k => exact .ok H _
          | l2l v n k => exact .ok H _
          | @sms s₀ s hr =>
            have := hst i s₀ hA s hr
            simp only [← this]
            cases hn : s.listMap mod with
            | error e => exact .error H e
            | ok q =>
              obtain ⟨n, s'⟩ := q
              exact .ok (H.set hA (.sms (.listMap hr hn))) _
          | prefixed p c =>
            obtain ⟨h1, H1, e1⟩ := ih h (i :: busy) c H
            simp only [e1]
            cases aListMap cols mod fuel A (i :: busy) c with
            | error e => exact .error H e
            | ok s => exact .ok H1 _
          | @replace c cs rs b hsim =>
            simp only [hsim.sorted]
            obtain ⟨h1, H1, e1⟩ := ih (h.set i (.replace c (sortBy Repl.le (tag 0 cs)) true))
              (i :: busy) c
              (H.set hA (.replace (by have := hsim.afterSort; rwa [hsim.sorted] at this)))
            simp only [e1]
            cases aListMap cols mod fuel A (i :: busy) c with
            | error e => exact .error H e
            | ok s => exact .ok H1 _
          | concat cs =>
            dsimp only
            generalize hx : eachChild _ h cs = x
            generalize hy : eachA _ cs = y
            have hc : Computes A x y := by
              rw [← hx, ← hy]
              refine Computes.each ?_ cs h H
              intro h c H
              cases c with
              | str s => exact .ok H _
              | ref j =>
                obtain ⟨h1, H1, e1⟩ := ih h (i :: busy) (.ref j) H
                simp only [e1]
                cases aListMap cols mod fuel A (i :: busy) (.ref j) with
                | error e => exact .error H e
                | ok s => exact .ok H1 _
            obtain ⟨h1, H1, e1⟩ := hc
            rw [e1]
            cases y with
            | error e => exact .error H e
            | ok s => exact .ok H1 _

theorem hListMap_computes (A : AHeap) (hst : A.Stable) (cols mod : Bool) (fuel : Nat) (h : Heap)
    (busy : List Nat) (src : Src) (H : Abs A h) :
    Computes A (hListMap cols mod fuel h busy src) (aListMap cols mod fuel A busy src) :=
  hListMap_steady A cols mod (hst.steady mod) fuel h busy src H

end WS
