import Verif.Proofs.JsCacheMap
import Verif.Props.C68
import Verif.Props.C65
/-!
# C73: what the maps handed out by CachedSources show

In programs with `CachedSource`s around any objects, in any depth, also as parts of other objects:

* the statements that are not reads are, for the other classes, those with the objects meant in the place of
  `CachedSource`s (`C73_transfer`), so the maps of objects that have `CachedSource`s in them show what C62, C63 and
  C65 say (`C73_objects_*`);
* a map handed out by a `CachedSource` is a pair that the object it stands for really handed out at some earlier
  or the present moment, asked with the same options or without options (`C73_origin`); read at any later time
  it shows what the statements up to that moment say of the object (`C73_columns_partial`, `C73_carries_partial`,
  `C73_lines_partial`); if no object is edited since before the first map was asked for, what they say now
  (`C73_unedited_partial`, `C73_unedited_lines_partial`).

Conditions as in C62, C63 and C65. False without them: `C73_stale` (edits after the map was kept are not in
the map), `C73_options` (asked for lines, a map with columns is handed out), `C58_map_moved`.
-/

namespace WS
open Spec

/-! ## Spec -/

/-- The pair `k` has the text of `m`, and its map gives the characters the files and lines of `m`. -/
def Spec.ShowsLines (w : World) (k : Nat) (m : NamedMarks) : Prop :=
  Reads w k .source (.text (m.map Prod.fst)) ∧
  ∃ l s ps, Reads w k .sources (.list l) ∧ Reads w k .mappings (.text s) ∧
    points (idTable l.length) [] s = some ps ∧ AttributesNamed l ps (1, 0) (seen none m)

/-- The object a statement edits. -/
def Spec.edited : COp → Option Nat
  | .js (.add j _) | .js (.replace j ..) | .js (.insert j ..) | .add j _ => some j
  | _ => none

/-- The sources an object consists of. -/
def Spec.JThing.parts : JThing → List JSrc
  | .leaf .. => []
  | .prefixed _ c => [c]
  | .replaced c _ => [c]
  | .joined items => items

/-- With an object all the objects in it are in the set. -/
def Spec.Whole (S : Nat → Prop) (st : List JThing) : Prop :=
  ∀ i x, S i → st[i]? = some x → ∀ i', .obj i' ∈ Spec.JThing.parts x → S i'

/-! ## Programs without CachedSources -/

/-- Whatever a program does with `CachedSource`s, the other classes are in a state that a program without
them reaches, whose statements are, but for reads, the same with the objects meant in the place of
`CachedSource`s. -/
theorem C73_transfer (ops : List COp) (w : CWorld) (hp : ∀ op ∈ ops, op.Proper) (e : CWorld.run ops = .ok w) :
    ∃ tr : List JOp, World.run tr = .ok w.base ∧ tr.filter (fun op => !op.quiet) = cplain ops ∧
      jthings tr = (cthings ops).things ∧ jmade tr = jmade (cplain ops) ∧ ∀ op ∈ tr, op.Proper := by
  obtain ⟨tr, h1, h2, h3⟩ := CWorld.run_trace hp e
  exact ⟨tr, h1, h2, by rw [← jthings_loud, h2, cplain_things], by rw [← jmade_loud, h2], h3⟩

theorem quiet_fewLines (op : JOp) (h : op.quiet = true) : Spec.JOp.FewLines op := by
  cases op <;> first | trivial | cases h

theorem quiet_exact (op : JOp) (h : op.quiet = true) : Spec.JOp.Exact op := by
  cases op <;> first | trivial | cases h

theorem quiet_ahead (op : JOp) (h : op.quiet = true) : Spec.JOp.Ahead op := by
  cases op <;> first | trivial | cases h

theorem quiet_readable (md : Bool) (op : JOp) (h : op.quiet = true) : Spec.JOp.Readable md op := by
  cases op <;> first | trivial | cases h

theorem quiet_keeps (m : Nat) (op : JOp) (h : op.quiet = true) : ¬ op.gives m ∧ ∀ a, op ≠ .set m a := by
  cases op <;> first | exact absurd h Bool.false_ne_true | exact ⟨id, (fun _ h' => by cases h')⟩

theorem mentions_loud (tr : List JOp) : mentions (tr.filter JOp.loud) = mentions tr := by
  induction tr with
  | nil => rfl
  | cons op tr ih =>
    cases hq : op.quiet with
    | true =>
      have : Spec.JOp.mentions op = [] := by cases op <;> first | rfl | cases hq
      have h2 : mentions (op :: tr) = mentions tr := by
        simp only [mentions, List.flatMap_cons, this, List.nil_append]
      rw [h2, ← ih, List.filter_cons_of_neg (by simp [JOp.loud, hq])]
    | false =>
      rw [List.filter_cons_of_pos (by simp [JOp.loud, hq])]
      simp only [mentions, List.flatMap_cons] at ih ⊢
      rw [ih]

/-- Statements that neither give away nor assign to pair `m`. -/
theorem keeps_pair {m : Nat} {t : CThings} {ops : List COp} {tr : List JOp} (h : tr.filter JOp.loud = plainFrom t ops)
    (hg : ∀ o, .js o ∈ ops → ¬ o.gives m) (hs : ∀ a, .js (.set m a) ∉ ops) :
    (∀ op ∈ tr, ¬ op.gives m) ∧ ∀ a, .set m a ∉ tr := by
  have : ∀ op ∈ tr, ¬ op.gives m ∧ ∀ a, op ≠ .set m a := by
    refine forall_loud (quiet_keeps m) h fun o ho => ?_
    rcases plainFrom_js ho with h | h
    · exact ⟨hg o h, fun a ha => hs a (ha ▸ h)⟩
    · exact ⟨h.1 m, fun a => h.2.1 m a⟩
  exact ⟨fun op ho => (this op ho).1, fun a ha => (this _ ha).2 a rfl⟩

/-! ## Objects that have CachedSources in them -/

/-- The map of an object shows the places the statements say, in which `CachedSource`s stand for what they
wrap. -/
theorem C73_objects_partial (ops more : List COp) (w w1 w2 : CWorld) (j k : Nat) (module_ : Bool)
    (r : CWorld.run ops = .ok w) (hp : ∀ op ∈ ops ++ more, op.Proper) (hf : ∀ op ∈ cplain ops, Spec.JOp.FewLines op)
    (hr : ∀ op ∈ cplain ops, Spec.JOp.Exact op) (hu : Unreplaced (cthings ops).things true (.obj j))
    (e : (COp.js (.sourceAndMap j true module_)).run w = .ok (.js (.pair k), w1)) (e2 : w1.runFrom more = .ok w2)
    (hg : ∀ o, .js o ∈ more → ¬ o.gives k) (hset : ∀ a, .js (.set k a) ∉ more) :
    ∃ m, JPlaces (cthings ops).things (jmade (cplain ops)) (.obj j) m ∧ ShowsPlaces w2.base k m := by
  have hp' : ∀ op ∈ ops, op.Proper := fun o h => hp o (by simp [h])
  obtain ⟨tr, h1, h2, h3, h4, h5⟩ := C73_transfer ops w hp' r
  have S1 := COp.run_sound (CWorld.run_sound hp' r) (op := .js (.sourceAndMap j true module_)) trivial e
  obtain ⟨tr', h6, h7⟩ := CWorld.runFrom_trace S1 (fun o h => hp o (by simp [h])) e2
  simp only [COp.run, CWorld.js, Except.map_ok_iff] at e
  obtain ⟨⟨x, b⟩, e3, e4⟩ := e
  cases e4
  obtain ⟨g1, g2⟩ := keeps_pair h7 hg hset
  have := C63_partial tr tr' w.base b w2.base j k module_ h1 h5 (forall_loud quiet_fewLines h2 hf)
    (forall_loud quiet_exact h2 hr) (by rw [h3]; exact hu) e3 h6 g1 g2
  rwa [h3, h4] at this

/-- The same where `ReplaceSource`s are in the object, for the code that stays. -/
theorem C73_objects_carry_partial (ops more : List COp) (w w1 w2 : CWorld) (j k : Nat) (module_ : Bool)
    (r : CWorld.run ops = .ok w) (hp : ∀ op ∈ ops ++ more, op.Proper) (hf : ∀ op ∈ cplain ops, Spec.JOp.FewLines op)
    (hr : ∀ op ∈ cplain ops, Spec.JOp.Exact op) (ha : ∀ op ∈ cplain ops, Spec.JOp.Ahead op)
    (ho : Orderly (cthings ops).things (jmade (cplain ops)) (mentions (cplain ops)) (.obj j))
    (e : (COp.js (.sourceAndMap j true module_)).run w = .ok (.js (.pair k), w1)) (e2 : w1.runFrom more = .ok w2)
    (hg : ∀ o, .js o ∈ more → ¬ o.gives k) (hset : ∀ a, .js (.set k a) ∉ more) :
    ∃ m, JCarries (cthings ops).things (jmade (cplain ops)) (.obj j) m ∧ KeepsPlaces w2.base k m := by
  have hp' : ∀ op ∈ ops, op.Proper := fun o h => hp o (by simp [h])
  obtain ⟨tr, h1, h2, h3, h4, h5⟩ := C73_transfer ops w hp' r
  have S1 := COp.run_sound (CWorld.run_sound hp' r) (op := .js (.sourceAndMap j true module_)) trivial e
  obtain ⟨tr', h6, h7⟩ := CWorld.runFrom_trace S1 (fun o h => hp o (by simp [h])) e2
  simp only [COp.run, CWorld.js, Except.map_ok_iff] at e
  obtain ⟨⟨x, b⟩, e3, e4⟩ := e
  cases e4
  obtain ⟨g1, g2⟩ := keeps_pair h7 hg hset
  have h8 : mentions tr = mentions (cplain ops) := by rw [← mentions_loud]; exact congrArg _ h2
  have := C65_partial tr tr' w.base b w2.base j k module_ h1 h5 (forall_loud quiet_fewLines h2 hf)
    (forall_loud quiet_exact h2 hr) (forall_loud quiet_ahead h2 ha) (by rw [h3, h4, h8]; exact ho) e3 h6 g1 g2
  rwa [h3, h4] at this

/-- Line-level maps of objects. -/
theorem C73_objects_lines_partial (ops more : List COp) (w w1 w2 : CWorld) (j k : Nat) (module_ : Bool)
    (r : CWorld.run ops = .ok w) (hp : ∀ op ∈ ops ++ more, op.Proper)
    (hr : ∀ op ∈ cplain ops, Spec.JOp.Readable module_ op)
    (e : (COp.js (.sourceAndMap j false module_)).run w = .ok (.js (.pair k), w1)) (e2 : w1.runFrom more = .ok w2)
    (hg : ∀ o, .js o ∈ more → ¬ o.gives k) (hset : ∀ a, .js (.set k a) ∉ more) :
    ∃ m, JLines (cthings ops).things (jmade (cplain ops)) module_ (.obj j) m ∧ ShowsLines w2.base k m := by
  have hp' : ∀ op ∈ ops, op.Proper := fun o h => hp o (by simp [h])
  obtain ⟨tr, h1, h2, h3, h4, h5⟩ := C73_transfer ops w hp' r
  have S1 := COp.run_sound (CWorld.run_sound hp' r) (op := .js (.sourceAndMap j false module_)) trivial e
  obtain ⟨tr', h6, h7⟩ := CWorld.runFrom_trace S1 (fun o h => hp o (by simp [h])) e2
  simp only [COp.run, CWorld.js, Except.map_ok_iff] at e
  obtain ⟨⟨x, b⟩, e3, e4⟩ := e
  cases e4
  obtain ⟨g1, g2⟩ := keeps_pair h7 hg hset
  have := C62_partial tr tr' w.base b w2.base j k module_ h1 h5 (forall_loud (quiet_readable module_) h2 hr)
    e3 h6 g1 g2
  rwa [h3, h4] at this

/-! ## CachedSources -/

/-- The map `m` that a `CachedSource` hands out was emitted by the object it stands for, after the
statements `lo ++ a`: without `CachedSource`s and but for reads, the program makes and edits objects, then asks
that object for its map, with the options or without options, then goes on. `lo` is any beginning of the
program in which no `CachedSource` is asked for a map. -/
theorem C73_origin (lo ops more : List COp) (w w1 w2 : CWorld) (op : COp) (x : CReply) (k m : Nat) (o : Option JOpts)
    (hp : ∀ op ∈ lo ++ ops ++ more, op.Proper) (hlo : ∀ op ∈ lo, op.asked = none)
    (r : CWorld.run (lo ++ ops) = .ok w)
    (ha : op.asked = some (k, o)) (e : op.run w = .ok (x, w1)) (hm : x.theMap = some (some m))
    (e2 : w1.runFrom more = .ok w2) :
    ∃ (j : Nat) (a rest : List COp) (tr tr' : List JOp) (u u1 : World) (c md : Bool),
      ops = a ++ rest ∧ (cthings (lo ++ ops)).stands[k]? = some j ∧
      World.run tr = .ok u ∧ tr.filter (fun op => !op.quiet) = cplain (lo ++ a) ∧
      (∃ v : CWorld, CWorld.run (lo ++ a) = .ok v ∧ v.base = u) ∧
      ((c = asksColumns o ∧ md = asksModule o) ∨ (c = true ∧ md = true)) ∧
      (JOp.sourceAndMap j c md).run u = .ok (.pair m, u1) ∧ u1.runFrom tr' = .ok w2.base ∧
      tr'.filter (fun op => !op.quiet) = plainFrom (cthings (lo ++ a)) (rest ++ more) := by
  have hp' : ∀ op ∈ lo ++ ops, op.Proper := fun o h => hp o (List.mem_append_left _ h)
  have S := CWorld.run_sound hp' r
  have hop : op.Proper := by cases op <;> first | trivial | cases ha
  have S1 := COp.run_sound S hop e
  have hcs : ∀ t, cstep t op = t := by intro t; cases op <;> first | rfl | cases ha
  rw [hcs] at S1
  obtain ⟨tr2, f1, f2⟩ := CWorld.runFrom_trace S1 (fun o h => hp o (List.mem_append_right _ h)) e2
  -- the beginning keeps no map
  have split : ∃ v, CWorld.run lo = .ok v ∧ v.runFrom ops = .ok w := by
    have : ∀ (a b : List COp) (v : CWorld), v.runFrom (a ++ b) = .ok w →
        ∃ y, v.runFrom a = .ok y ∧ y.runFrom b = .ok w := by
      intro a
      induction a with
      | nil => intro b v h; exact ⟨v, rfl, h⟩
      | cons op a ih =>
        intro b v h
        simp only [List.cons_append, CWorld.runFrom, Except.bind_ok_iff] at h ⊢
        obtain ⟨p, h1, h2⟩ := h
        obtain ⟨y, h3, h4⟩ := ih b _ h2
        exact ⟨y, ⟨p, h1, h3⟩, h4⟩
    exact this lo ops _ r
  obtain ⟨v, hv, hw⟩ := split
  have K := CWorld.runFrom_unasked hlo (w := CWorld.empty) (fun c h => by simp [CWorld.empty] at h) hv
  have H0 : v.AllMaps (RootedAt lo (lo ++ []) v.base) := by
    intro k c o m hc hl
    rw [K c (List.mem_of_getElem? hc)] at hl; cases hl
  have H := CWorld.runFrom_rooted (pre := []) (by simpa using hp') (by simpa using hv) H0 hw
  rw [List.nil_append] at H
  obtain ⟨-, h2⟩ := COp.run_rooted (lo := lo) (pre := ops) hp' r H e
  obtain ⟨j, hj, hR⟩ := h2 k o (some m) ha hm
  have hR := hR m rfl
  obtain ⟨a, rest, u, c, md, b1, tr, g1, g2, g3, g4, g5, g8⟩ := hR
  have g7 : ops = a ++ rest := List.append_cancel_left g1
  have hpa : ∀ op ∈ lo ++ a, op.Proper := fun o h => hp' o (by
    rw [g7]; rcases List.mem_append.1 h with h | h <;> simp [h])
  obtain ⟨tr0, t1, t2, -⟩ := C73_transfer _ _ hpa g2
  refine ⟨j, a, rest, tr0, tr ++ tr2, u.base, b1, c, md, g7, hj, t1, t2, ⟨u, g2, rfl⟩, g3, g4,
    World.runFrom_append g5 f1, ?_⟩
  rw [show (fun op : JOp => !op.quiet) = JOp.loud from rfl, List.filter_append, g8, f2, plainFrom_append]
  congr 2
  rw [g7, ← List.append_assoc, cthings, List.foldl_append]; rfl

/-- C73_origin in the terms of C62, C63 and C65. -/
theorem origin_prepared (lo ops more : List COp) (w w1 w2 : CWorld) (op : COp) (x : CReply) (k m : Nat)
    (o : Option JOpts) (hp : ∀ op ∈ lo ++ ops ++ more, op.Proper) (hlo : ∀ op ∈ lo, op.asked = none)
    (r : CWorld.run (lo ++ ops) = .ok w) (ha : op.asked = some (k, o))
    (e : op.run w = .ok (x, w1)) (hm : x.theMap = some (some m)) (e2 : w1.runFrom more = .ok w2)
    (hg : ∀ o, .js o ∈ ops ++ more → ¬ o.gives m) (hset : ∀ a, .js (.set m a) ∉ ops ++ more) :
    ∃ (j : Nat) (a rest : List COp) (tr tr' : List JOp) (u u1 : World) (c md : Bool),
      ops = a ++ rest ∧ (cthings (lo ++ ops)).stands[k]? = some j ∧ World.run tr = .ok u ∧
      jthings tr = (cthings (lo ++ a)).things ∧ jmade tr = jmade (cplain (lo ++ a)) ∧
      mentions tr = mentions (cplain (lo ++ a)) ∧ (∀ op ∈ tr, op.Proper) ∧
      (∀ P : JOp → Prop, (∀ op, op.quiet = true → P op) → (∀ op ∈ cplain (lo ++ ops), P op) → ∀ op ∈ tr, P op) ∧
      ((c = asksColumns o ∧ md = asksModule o) ∨ (c = true ∧ md = true)) ∧
      (JOp.sourceAndMap j c md).run u = .ok (.pair m, u1) ∧ u1.runFrom tr' = .ok w2.base ∧
      (∀ op ∈ tr', ¬ op.gives m) ∧ ∀ a, .set m a ∉ tr' := by
  obtain ⟨j, a, rest, tr, tr', u, u1, c, md, rfl, h2, h3, h4, -, h5, h6, h7, h8⟩ :=
    C73_origin lo ops more w w1 w2 op x k m o hp hlo r ha e hm e2
  obtain ⟨g1, g2⟩ := keeps_pair h8 (fun o h => hg o (by
      rcases List.mem_append.1 h with h | h <;> simp [h])) (fun a h => hset a (by
      rcases List.mem_append.1 h with h | h <;> simp [h]))
  refine ⟨j, a, rest, tr, tr', u, u1, c, md, rfl, h2, h3, ?_, ?_, ?_, ?_, ?_, h5, h6, h7, g1, g2⟩
  · rw [← jthings_loud, ← cplain_things]; exact congrArg _ h4
  · rw [← jmade_loud]; exact congrArg _ h4
  · rw [← mentions_loud]; exact congrArg _ h4
  · refine forall_loud (fun op h => JOp.quiet_proper h) h4 fun o ho => ?_
    rcases plainFrom_js ho with h | h
    · exact hp (.js o) (by rcases List.mem_append.1 h with h | h <;> simp [h])
    · exact h.2.2
  · intro P hq hP
    refine forall_loud hq h4 fun o ho => hP o ?_
    rw [← List.append_assoc, cplain, plainFrom_append]
    exact List.mem_append_left _ ho

/-- With columns: the map shows the places that the statements up to the moment it was emitted say. -/
theorem C73_columns_partial (lo ops more : List COp) (w w1 w2 : CWorld) (op : COp) (x : CReply) (k m : Nat)
    (o : Option JOpts) (hp : ∀ op ∈ lo ++ ops ++ more, op.Proper) (hlo : ∀ op ∈ lo, op.asked = none)
    (hf : ∀ op ∈ cplain (lo ++ ops), Spec.JOp.FewLines op) (hr : ∀ op ∈ cplain (lo ++ ops), Spec.JOp.Exact op)
    (r : CWorld.run (lo ++ ops) = .ok w) (ha : op.asked = some (k, o)) (hc : asksColumns o = true)
    (e : op.run w = .ok (x, w1)) (hm : x.theMap = some (some m)) (e2 : w1.runFrom more = .ok w2)
    (hg : ∀ o, .js o ∈ ops ++ more → ¬ o.gives m) (hset : ∀ a, .js (.set m a) ∉ ops ++ more) :
    ∃ j a rest, ops = a ++ rest ∧ (cthings (lo ++ ops)).stands[k]? = some j ∧
      (Unreplaced (cthings (lo ++ a)).things true (.obj j) →
        ∃ mk, JPlaces (cthings (lo ++ a)).things (jmade (cplain (lo ++ a))) (.obj j) mk ∧
          ShowsPlaces w2.base m mk) := by
  obtain ⟨j, a, rest, tr, tr', u, u1, c, md, h1, h2, h3, t1, t2, -, t4, t5, h5, h6, h7, g1, g2⟩ :=
    origin_prepared lo ops more w w1 w2 op x k m o hp hlo r ha e hm e2 hg hset
  refine ⟨j, a, rest, h1, h2, fun hu => ?_⟩
  obtain rfl : c = true := by rcases h5 with ⟨h, -⟩ | ⟨h, -⟩ <;> simp [h, hc]
  have := C63_partial tr tr' u u1 w2.base j m md h3 t4 (t5 _ quiet_fewLines hf) (t5 _ quiet_exact hr)
    (by rw [t1]; exact hu) h6 h7 g1 g2
  rwa [t1, t2] at this

/-- The same where `ReplaceSource`s are in the object, for the code that stays. -/
theorem C73_carries_partial (lo ops more : List COp) (w w1 w2 : CWorld) (op : COp) (x : CReply) (k m : Nat)
    (o : Option JOpts) (hp : ∀ op ∈ lo ++ ops ++ more, op.Proper) (hlo : ∀ op ∈ lo, op.asked = none)
    (hf : ∀ op ∈ cplain (lo ++ ops), Spec.JOp.FewLines op) (hr : ∀ op ∈ cplain (lo ++ ops), Spec.JOp.Exact op)
    (hah : ∀ op ∈ cplain (lo ++ ops), Spec.JOp.Ahead op)
    (r : CWorld.run (lo ++ ops) = .ok w) (ha : op.asked = some (k, o)) (hc : asksColumns o = true)
    (e : op.run w = .ok (x, w1)) (hm : x.theMap = some (some m)) (e2 : w1.runFrom more = .ok w2)
    (hg : ∀ o, .js o ∈ ops ++ more → ¬ o.gives m) (hset : ∀ a, .js (.set m a) ∉ ops ++ more) :
    ∃ j a rest, ops = a ++ rest ∧ (cthings (lo ++ ops)).stands[k]? = some j ∧
      (Orderly (cthings (lo ++ a)).things (jmade (cplain (lo ++ a))) (mentions (cplain (lo ++ a))) (.obj j) →
        ∃ mk, JCarries (cthings (lo ++ a)).things (jmade (cplain (lo ++ a))) (.obj j) mk ∧
          KeepsPlaces w2.base m mk) := by
  obtain ⟨j, a, rest, tr, tr', u, u1, c, md, h1, h2, h3, t1, t2, t3, t4, t5, h5, h6, h7, g1, g2⟩ :=
    origin_prepared lo ops more w w1 w2 op x k m o hp hlo r ha e hm e2 hg hset
  refine ⟨j, a, rest, h1, h2, fun hu => ?_⟩
  obtain rfl : c = true := by rcases h5 with ⟨h, -⟩ | ⟨h, -⟩ <;> simp [h, hc]
  have := C65_partial tr tr' u u1 w2.base j m md h3 t4 (t5 _ quiet_fewLines hf) (t5 _ quiet_exact hr)
    (t5 _ quiet_ahead hah) (by rw [t1, t2, t3]; exact hu) h6 h7 g1 g2
  rwa [t1, t2] at this

/-- Asked for lines: the map shows the lines that the statements up to the moment it was emitted say, unless
it is one with columns, which shows the places. -/
theorem C73_lines_partial (lo ops more : List COp) (w w1 w2 : CWorld) (op : COp) (x : CReply) (k m : Nat)
    (o : Option JOpts) (hp : ∀ op ∈ lo ++ ops ++ more, op.Proper) (hlo : ∀ op ∈ lo, op.asked = none)
    (hf : ∀ op ∈ cplain (lo ++ ops), Spec.JOp.FewLines op) (hr : ∀ op ∈ cplain (lo ++ ops), Spec.JOp.Exact op)
    (hl : ∀ op ∈ cplain (lo ++ ops), Spec.JOp.Readable (asksModule o) op)
    (r : CWorld.run (lo ++ ops) = .ok w) (ha : op.asked = some (k, o)) (hc : asksColumns o = false)
    (e : op.run w = .ok (x, w1)) (hm : x.theMap = some (some m)) (e2 : w1.runFrom more = .ok w2)
    (hg : ∀ o, .js o ∈ ops ++ more → ¬ o.gives m) (hset : ∀ a, .js (.set m a) ∉ ops ++ more) :
    ∃ j a rest, ops = a ++ rest ∧ (cthings (lo ++ ops)).stands[k]? = some j ∧
      ((∃ mk, JLines (cthings (lo ++ a)).things (jmade (cplain (lo ++ a))) (asksModule o) (.obj j) mk ∧
          ShowsLines w2.base m mk) ∨
       (Unreplaced (cthings (lo ++ a)).things true (.obj j) →
        ∃ mk, JPlaces (cthings (lo ++ a)).things (jmade (cplain (lo ++ a))) (.obj j) mk ∧
          ShowsPlaces w2.base m mk)) := by
  obtain ⟨j, a, rest, tr, tr', u, u1, c, md, h1, h2, h3, t1, t2, -, t4, t5, h5, h6, h7, g1, g2⟩ :=
    origin_prepared lo ops more w w1 w2 op x k m o hp hlo r ha e hm e2 hg hset
  refine ⟨j, a, rest, h1, h2, ?_⟩
  rcases h5 with ⟨rfl, rfl⟩ | ⟨rfl, rfl⟩
  · rw [hc] at h6
    left
    have := C62_partial tr tr' u u1 w2.base j m _ h3 t4 (t5 _ (quiet_readable _) hl) h6 h7 g1 g2
    rwa [t1, t2] at this
  · refine .inr fun hu => ?_
    have := C63_partial tr tr' u u1 w2.base j m true h3 t4 (t5 _ quiet_fewLines hf) (t5 _ quiet_exact hr)
      (by rw [t1]; exact hu) h6 h7 g1 g2
    rwa [t1, t2] at this

/-! ## Nothing edited since -/

theorem jstep_same (st : List JThing) (op : JOp) {i : Nat} (hi : i < st.length)
    (he : edited (.js op) ≠ some i) : (jstep st op)[i]? = st[i]? := by
  have app : ∀ y : JThing, (st ++ [y])[i]? = st[i]? := fun y => List.getElem?_append_left hi
  have add : ∀ j y, j ≠ i → (addTo st j y)[i]? = st[i]? := by
    intro j y hj
    unfold addTo
    split
    · exact List.getElem?_set_ne hj
    · rfl
  have ask : ∀ j y, j ≠ i → (askTo st j y)[i]? = st[i]? := by
    intro j y hj
    unfold askTo
    split
    · exact List.getElem?_set_ne hj
    · rfl
  cases op with
  | newConcat items =>
    obtain ⟨y, hy⟩ := addTo_lasts st items (.joined [])
    simp only [jstep]
    rw [hy]; exact app y
  | add j y => exact add j y fun h => he (by rw [h]; rfl)
  | replace j a b t => exact ask j _ fun h => he (by rw [h]; rfl)
  | insert j a t => exact ask j _ fun h => he (by rw [h]; rfl)
  | _ => first | exact app _ | rfl

theorem jstep_length (st : List JThing) (op : JOp) : st.length ≤ (jstep st op).length := by
  have add : ∀ (st : List JThing) j i, (addTo st j i).length = st.length := by
    intro st j i; unfold addTo; split <;> simp
  have ask : ∀ (st : List JThing) j i, (askTo st j i).length = st.length := by
    intro st j i; unfold askTo; split <;> simp
  have adds : ∀ (is : List JSrc) (st : List JThing) j,
      (is.foldl (fun s i => addTo s j i) st).length = st.length := by
    intro is
    induction is with
    | nil => intro st j; rfl
    | cons i is ih => intro st j; rw [List.foldl_cons, ih, add]
  cases op <;> simp [jstep, add, ask, adds]

theorem cstep_same (t : CThings) (op : COp) {i : Nat} (hi : i < t.things.length) (he : edited op ≠ some i) :
    (cstep t op).things[i]? = t.things[i]? ∧ t.things.length ≤ (cstep t op).things.length := by
  cases op with
  | js op => exact ⟨jstep_same _ _ hi he, jstep_length t.things _⟩
  | newPrefix p a => exact ⟨jstep_same _ (.newPrefix p _) hi (by simp [edited]), jstep_length t.things (.newPrefix p _)⟩
  | newReplace a => exact ⟨jstep_same _ (.newReplace _) hi (by simp [edited]), jstep_length t.things (.newReplace _)⟩
  | newConcat as => exact ⟨jstep_same _ (.newConcat _) hi (by simp [edited]), jstep_length t.things (.newConcat _)⟩
  | add j a => exact ⟨jstep_same _ (.add j _) hi he, jstep_length t.things (.add j _)⟩
  | _ => exact ⟨rfl, Nat.le_refl _⟩

theorem csteps_same : ∀ (ops : List COp) (t : CThings) {i : Nat}, i < t.things.length →
    (∀ op ∈ ops, edited op ≠ some i) → (ops.foldl cstep t).things[i]? = t.things[i]?
  | [], _, _, _, _ => rfl
  | op :: ops, t, i, hi, he => by
    obtain ⟨h1, h2⟩ := cstep_same t op hi (he op (by simp))
    rw [List.foldl_cons, csteps_same ops _ (by omega) fun o h => he o (by simp [h]), h1]

/-- All references are to objects there are. -/
def Closed (st : List JThing) : Prop :=
  ∀ (i : Nat) (x : JThing), st[i]? = some x → ∀ i', .obj i' ∈ Spec.JThing.parts x → i' < st.length

theorem SimAll.closed {A : AHeap} {objs : List JObj} {st : List JThing} (I : SimAll A objs st) : Closed st := by
  have bound : ∀ {i' : Nat} {c : Src}, tr (objs.map JObj.ptr) (.obj i') = some c → i' < st.length := by
    intro i' c h
    simp only [tr, Option.map_eq_some_iff] at h
    obtain ⟨p, h1, -⟩ := h
    have := (List.getElem?_eq_some_iff.1 h1).1
    rw [← I.len]; simpa using this
  intro i x hx i' hi'
  obtain ⟨o, ho, sim⟩ := I.get hx
  obtain ⟨p, kd⟩ := o
  dsimp only at sim
  cases sim with
  | leaf => cases hi'
  | prefixed _ ht =>
    rw [← List.mem_singleton.1 hi'] at ht; exact bound ht
  | replaced _ ht =>
    rw [← List.mem_singleton.1 hi'] at ht; exact bound ht
  | @joined cs items is _ ht =>
    obtain ⟨n, hn⟩ := List.mem_iff_getElem?.1 hi'
    have : (items.map (tr (objs.map JObj.ptr)))[n]? = (is.map some)[n]? := by rw [ht]
    have hn : items[n]? = some (.obj i') := hn
    rw [List.getElem?_map, hn, List.getElem?_map] at this
    cases hc : is[n]? with
    | none => rw [hc] at this; cases this
    | some c => rw [hc] at this; exact bound (Option.some.inj this)

/-- The source is a string or one of the objects. -/
def In (S : Nat → Prop) : JSrc → Prop
  | .str _ => True
  | .obj i => S i

section
variable {S : Nat → Prop} {st st' : List JThing} {made r : List JOp}

/-- The objects of the set that there are in `st` are the same in `st'`. -/
structure Untouched (S : Nat → Prop) (st st' : List JThing) : Prop where
  closed : Closed st
  whole : Whole S st'
  same : ∀ i, S i → i < st.length → st'[i]? = st[i]?

theorem Untouched.get (K : Untouched S st st') {i : Nat} {x : JThing} (hi : S i) (h : st[i]? = some x) : st'[i]? = some x := by
  rw [K.same i hi (List.getElem?_eq_some_iff.1 h).1]; exact h

theorem Untouched.part (K : Untouched S st st') {i : Nat} {x : JThing} (hi : S i) (h : st[i]? = some x) {c : JSrc}
    (hc : c ∈ Spec.JThing.parts x) : In S c ∧ In (· < st.length) c := by
  cases c with
  | str => exact ⟨trivial, trivial⟩
  | obj i' => exact ⟨K.whole i x hi (K.get hi h) i' hc, K.closed i x h i' hc⟩

theorem Untouched.back (K : Untouched S st st') {e : Bool} {c : JSrc} (h : Unreplaced st' e c) :
    In S c → In (· < st.length) c → Unreplaced st e c := by
  induction h with
  | str s hs => exact fun _ _ => .str s hs
  | leaf hx => exact fun hs hb => .leaf (by rw [← K.same _ hs hb]; exact hx)
  | prefixed hx _ ih =>
    intro hs hb
    have hx' := hx; rw [K.same _ hs hb] at hx'
    have := K.part hs hx' (c := _) (List.mem_singleton.2 rfl)
    exact .prefixed hx' (ih this.1 this.2)
  | joined hx _ ih =>
    intro hs hb
    have hx' := hx; rw [K.same _ hs hb] at hx'
    exact .joined hx' fun i hi => ih i hi (K.part hs hx' hi).1 (K.part hs hx' hi).2

theorem Untouched.places (K : Untouched S st st') {c : JSrc} {m : PlacedMarks} (h : JPlaces st made c m) :
    In S c → JPlaces st' (made ++ r) c m := by
  induction h with
  | str s => exact fun _ => .str s
  | raw h => exact fun _ => .raw (getElem?_append_some h)
  | original h => exact fun _ => .original (getElem?_append_some h)
  | l2l h => exact fun _ => .l2l (getElem?_append_some h)
  | sms h hp => exact fun _ => .sms (getElem?_append_some h) hp
  | inner h hp hp' => exact fun _ => .inner (getElem?_append_some h) hp hp'
  | prefixed hx _ hpre hnon ih =>
    intro hs
    have := K.part hs hx (c := _) (List.mem_singleton.2 rfl)
    exact .prefixed (K.get hs hx) (ih this.1) hpre fun hu => hnon (K.back hu this.1 this.2)
  | joined hx hl _ ih =>
    intro hs
    exact .joined (K.get hs hx) hl fun k i m hi hm => ih k i m hi hm (K.part hs hx (List.mem_of_getElem? hi)).1

theorem Untouched.lines (K : Untouched S st st') {md : Bool} {c : JSrc} {m : NamedMarks} (h : JLines st made md c m) :
    In S c → JLines st' (made ++ r) md c m := by
  induction h with
  | str s => exact fun _ => .str s
  | raw h => exact fun _ => .raw (getElem?_append_some h)
  | original h => exact fun _ => .original (getElem?_append_some h)
  | l2l h => exact fun _ => .l2l (getElem?_append_some h)
  | whole h hm => exact fun _ => .whole (getElem?_append_some h) hm
  | sms h hm hd => exact fun _ => .sms (getElem?_append_some h) hm hd
  | prefixed hx _ hpre hnon ih =>
    intro hs
    exact .prefixed (K.get hs hx) (ih (K.part hs hx (List.mem_singleton.2 rfl)).1) hpre hnon
  | replaced hx _ ho h1 h2 ih =>
    intro hs
    exact .replaced (K.get hs hx) (ih (K.part hs hx (List.mem_singleton.2 rfl)).1) ho h1 h2
  | joined hx hl _ ih =>
    intro hs
    exact .joined (K.get hs hx) hl fun k i m hi hm => ih k i m hi hm (K.part hs hx (List.mem_of_getElem? hi)).1

end

theorem kept_since {S : Nat → Prop} {lo a rest : List COp} {tr : List JOp} {u : World}
    (hu : World.run tr = .ok u) (ht : jthings tr = (cthings (lo ++ a)).things) (hp : ∀ op ∈ tr, op.Proper)
    (hS : Whole S (cthings (lo ++ (a ++ rest))).things) (he : ∀ op ∈ rest, ∀ i, edited op = some i → ¬ S i) :
    Untouched S (cthings (lo ++ a)).things (cthings (lo ++ (a ++ rest))).things := by
  obtain ⟨A, I⟩ := World.run_inv hp hu
  refine ⟨?_, hS, fun i hi hl => ?_⟩
  · rw [← ht]; exact I.sim.closed
  · rw [← List.append_assoc, cthings, List.foldl_append]
    exact csteps_same rest _ hl fun op ho h => he op ho i h hi

theorem emitted_object {w u : World} {A : AHeap} {st : List JThing} (I : w.Inv A st) {j : Nat} {c md : Bool} {x : JAnswer}
    (e : w.emit j c md = .ok (x, u)) : j < st.length := by
  rw [← I.sim.len]
  cases ho : w.objs[j]? with
  | none => simp only [World.emit, ho] at e; cases e
  | some o => exact (List.getElem?_eq_some_iff.1 ho).1

/-- If, since before the first map was asked for, no object of a set is edited, which has in it the object a
`CachedSource` stands for and with every object those it consists of, the map with columns shows the places that
the statements say. -/
theorem C73_unedited_partial (S : Nat → Prop) (lo ops more : List COp) (w w1 w2 : CWorld) (op : COp) (x : CReply)
    (k j m : Nat) (o : Option JOpts) (hp : ∀ op ∈ lo ++ ops ++ more, op.Proper) (hlo : ∀ op ∈ lo, op.asked = none)
    (hf : ∀ op ∈ cplain (lo ++ ops), Spec.JOp.FewLines op) (hr : ∀ op ∈ cplain (lo ++ ops), Spec.JOp.Exact op)
    (hj : (cthings (lo ++ ops)).stands[k]? = some j) (hS : S j) (hw : Whole S (cthings (lo ++ ops)).things)
    (he : ∀ op ∈ ops, ∀ i, edited op = some i → ¬ S i)
    (hu : Unreplaced (cthings (lo ++ ops)).things true (.obj j))
    (r : CWorld.run (lo ++ ops) = .ok w) (ha : op.asked = some (k, o)) (hc : asksColumns o = true)
    (e : op.run w = .ok (x, w1)) (hm : x.theMap = some (some m)) (e2 : w1.runFrom more = .ok w2)
    (hg : ∀ o, .js o ∈ ops ++ more → ¬ o.gives m) (hset : ∀ a, .js (.set m a) ∉ ops ++ more) :
    ∃ mk, JPlaces (cthings (lo ++ ops)).things (jmade (cplain (lo ++ ops))) (.obj j) mk ∧ ShowsPlaces w2.base m mk := by
  obtain ⟨j', a, rest, tr, tr', u, u1, c, md, rfl, h2, h3, t1, t2, -, t4, t5, h5, h6, h7, g1, g2⟩ :=
    origin_prepared lo ops more w w1 w2 op x k m o hp hlo r ha e hm e2 hg hset
  rw [hj] at h2; cases h2
  obtain rfl : c = true := by rcases h5 with ⟨h, -⟩ | ⟨h, -⟩ <;> simp [h, hc]
  have K := kept_since h3 t1 t4 hw fun op ho => he op (List.mem_append_right _ ho)
  obtain ⟨A, I⟩ := World.run_inv t4 h3
  rw [t1] at I
  obtain ⟨mk, h8, h9⟩ := C63_partial tr tr' u u1 w2.base j m md h3 t4 (t5 _ quiet_fewLines hf) (t5 _ quiet_exact hr)
    (by rw [t1]; exact K.back hu hS (emitted_object I h6)) h6 h7 g1 g2
  rw [t1, t2] at h8
  refine ⟨mk, ?_, h9⟩
  have : cplain (lo ++ (a ++ rest)) = cplain (lo ++ a) ++ plainFrom (cthings (lo ++ a)) rest := by
    rw [← List.append_assoc, cplain, plainFrom_append]; rfl
  rw [this, jmade, List.filter_append]
  exact K.places h8 hS

/-- Asked for lines, the same of the lines; or else of the places. -/
theorem C73_unedited_lines_partial (S : Nat → Prop) (lo ops more : List COp) (w w1 w2 : CWorld) (op : COp) (x : CReply)
    (k j m : Nat) (o : Option JOpts) (hp : ∀ op ∈ lo ++ ops ++ more, op.Proper) (hlo : ∀ op ∈ lo, op.asked = none)
    (hf : ∀ op ∈ cplain (lo ++ ops), Spec.JOp.FewLines op) (hr : ∀ op ∈ cplain (lo ++ ops), Spec.JOp.Exact op)
    (hl : ∀ op ∈ cplain (lo ++ ops), Spec.JOp.Readable (asksModule o) op)
    (hj : (cthings (lo ++ ops)).stands[k]? = some j) (hS : S j) (hw : Whole S (cthings (lo ++ ops)).things)
    (he : ∀ op ∈ ops, ∀ i, edited op = some i → ¬ S i)
    (r : CWorld.run (lo ++ ops) = .ok w) (ha : op.asked = some (k, o)) (hc : asksColumns o = false)
    (e : op.run w = .ok (x, w1)) (hm : x.theMap = some (some m)) (e2 : w1.runFrom more = .ok w2)
    (hg : ∀ o, .js o ∈ ops ++ more → ¬ o.gives m) (hset : ∀ a, .js (.set m a) ∉ ops ++ more) :
    (∃ mk, JLines (cthings (lo ++ ops)).things (jmade (cplain (lo ++ ops))) (asksModule o) (.obj j) mk ∧
      ShowsLines w2.base m mk) ∨
    (Unreplaced (cthings (lo ++ ops)).things true (.obj j) →
      ∃ mk, JPlaces (cthings (lo ++ ops)).things (jmade (cplain (lo ++ ops))) (.obj j) mk ∧
        ShowsPlaces w2.base m mk) := by
  obtain ⟨j', a, rest, tr, tr', u, u1, c, md, rfl, h2, h3, t1, t2, -, t4, t5, h5, h6, h7, g1, g2⟩ :=
    origin_prepared lo ops more w w1 w2 op x k m o hp hlo r ha e hm e2 hg hset
  rw [hj] at h2; cases h2
  have K := kept_since h3 t1 t4 hw fun op ho => he op (List.mem_append_right _ ho)
  obtain ⟨A, I⟩ := World.run_inv t4 h3
  rw [t1] at I
  have hcp : jmade (cplain (lo ++ (a ++ rest))) =
      jmade (cplain (lo ++ a)) ++ jmade (plainFrom (cthings (lo ++ a)) rest) := by
    rw [← List.append_assoc, cplain, plainFrom_append, jmade, List.filter_append]; rfl
  rw [hcp]
  rcases h5 with ⟨rfl, rfl⟩ | ⟨rfl, rfl⟩
  · rw [hc] at h6
    left
    obtain ⟨mk, h8, h9⟩ := C62_partial tr tr' u u1 w2.base j m _ h3 t4 (t5 _ (quiet_readable _) hl) h6 h7 g1 g2
    rw [t1, t2] at h8
    exact ⟨mk, K.lines h8 hS, h9⟩
  · refine .inr fun hu => ?_
    obtain ⟨mk, h8, h9⟩ := C63_partial tr tr' u u1 w2.base j m true h3 t4 (t5 _ quiet_fewLines hf)
      (t5 _ quiet_exact hr) (by rw [t1]; exact K.back hu hS (emitted_object I h6)) h6 h7 g1 g2
    rw [t1, t2] at h8
    exact ⟨mk, K.places h8 hS, h9⟩

/-! Non-trivial case: a `CachedSource` in a `ConcatSource` in a `CachedSource` in a `CachedSource`, which is
put into another `ConcatSource` after it was asked for a map. -/

/-- The part in which no map is asked for. -/
def c73Start : List COp :=
  [.js (.newOriginal "a;b\nc\n".toList "a.js".toList), .newCached (.obj 0),
   .newConcat [.ref (.cached 0), .str "x\n".toList], .newCached (.obj 1), .newCached (.cached 1)]

/-- The rest. -/
def c73Rest : List COp :=
  [.both 2 none, .js (.newConcat []), .add 2 (.ref (.cached 2)), .js (.sourceAndMap 2 true true)]

/-- Reads of all properties. -/
def c73Reads (k : Nat) : List COp :=
  [.js (.get k .source), .js (.get k .sources), .js (.get k .names), .js (.get k .mappings)]

example : (∀ op ∈ c73Start ++ c73Rest ++ c73Reads 2, op.Proper) ∧ (∀ op ∈ c73Start, op.asked = none) ∧
    (∀ op ∈ cplain (c73Start ++ c73Rest), Spec.JOp.FewLines op) ∧
    (∀ op ∈ cplain (c73Start ++ c73Rest), Spec.JOp.Exact op) ∧
    (cthings (c73Start ++ c73Rest)).stands[2]? = some 1 ∧
    Whole (· ≤ 1) (cthings (c73Start ++ c73Rest)).things ∧
    (∀ op ∈ c73Rest, ∀ i, edited op = some i → ¬ i ≤ 1) ∧
    Unreplaced (cthings (c73Start ++ c73Rest)).things true (.obj 1) ∧
    ((COp.map 2 none).asked = some (2, some ⟨none, none⟩) ∧ asksColumns (some ⟨none, none⟩) = true) ∧
    (∀ o, .js o ∈ c73Rest ++ c73Reads 2 → ¬ o.gives 2) ∧ ∀ a, .js (.set 2 a) ∉ c73Rest ++ c73Reads 2 := by
  have hpl : cplain (c73Start ++ c73Rest) =
      [.newOriginal "a;b\nc\n".toList "a.js".toList, .newConcat [.obj 0, .str "x\n".toList], .newConcat [],
       .add 2 (.obj 1)] := by decide +kernel
  have hth : (cthings (c73Start ++ c73Rest)).things = [.leaf "a;b\nc\n".toList [],
      .joined [.obj 0, .str "x\n".toList], .joined [.obj 0, .str "x\n".toList]] := by decide +kernel
  rw [hpl, hth]
  refine ⟨?_, by simp [c73Start, COp.asked], ?_, by simp [Spec.JOp.Exact], by decide +kernel, ?_, ?_, ?_, ⟨rfl, rfl⟩,
    ?_, by simp [c73Rest, c73Reads]⟩
  · simp [c73Start, c73Rest, c73Reads, COp.Proper, JOp.Proper]
  · simp only [List.forall_mem_cons, Spec.JOp.FewLines]
    unfold Spec.FewLines
    exact ⟨by decide, trivial, trivial, trivial, by simp⟩
  · intro i x hi hx i' hi'
    match i, hi, hx with
    | 0, _, hx => cases hx; cases hi'
    | 1, _, hx => cases hx; simp [Spec.JThing.parts] at hi'; omega
    | i + 2, hi, _ => omega
  · intro op ho i hi
    simp only [c73Rest, List.mem_cons, List.not_mem_nil, or_false] at ho
    rcases ho with rfl | rfl | rfl | rfl <;> cases hi
    omega
  · refine .joined (items := [.obj 0, .str "x\n".toList]) rfl ?_
    intro i hi
    simp only [List.mem_cons, List.not_mem_nil, or_false] at hi
    rcases hi with rfl | rfl
    · exact .leaf rfl
    · exact .str _ (.inl rfl)
  · intro o ho
    simp only [c73Rest, c73Reads, List.cons_append, List.nil_append, List.mem_cons, List.not_mem_nil, or_false] at ho
    rcases ho with h | h | h | h | h | h | h | h <;> cases h <;> exact id
example : shownReplies (c73Start ++ c73Rest ++ [.map 2 none] ++ c73Reads 2) =
    [.inr (.js .done), .inr (.js .done), .inr (.js .done), .inr (.js .done), .inr (.js .done),
     .inr (.both "a;b\nc\nx\n".toList (some 0)), .inr (.js .done), .inr (.js .done), .inr (.js (.pair 1)),
     .inr (.map (some 2)),
     .inr (.js (.field (.text "a;b\nc\nx\n".toList))), .inr (.js (.field (.list [some "a.js".toList]))),
     .inr (.js (.field (.list []))), .inr (.js (.field (.text "AAAA,EAAE;AACF".toList)))] := by decide +kernel

/-! Not without the conditions. -/

/-- The map handed out does not show what was added after the first was kept. -/
theorem C73_stale :
    shownReplies ([.js (.newOriginal "a;b\n".toList "a.js".toList), .js (.newConcat [.obj 0]), .newCached (.obj 1),
      .both 0 none, .js (.add 1 (.str "z\n".toList)), .js (.source 1), .both 0 none, .js (.get 0 .source)]) =
    [.inr (.js .done), .inr (.js .done), .inr (.js .done), .inr (.both "a;b\n".toList (some 0)), .inr (.js .done),
     .inr (.js (.text "a;b\nz\n".toList)), .inr (.both "a;b\n".toList (some 0)),
     .inr (.js (.field (.text "a;b\n".toList)))] := by decide +kernel

/-- Asked for lines, `map` and after it `sourceAndMap` hand out a map with columns. -/
theorem C73_options :
    shownReplies ([.js (.newOriginal "a;b\n".toList "a.js".toList), .newCached (.obj 0),
      .map 0 (some ⟨some false, none⟩), .both 0 (some ⟨some false, none⟩), .js (.get 0 .mappings)]) =
    [.inr (.js .done), .inr (.js .done), .inr (.map (some 0)), .inr (.both "a;b\n".toList (some 0)),
     .inr (.js (.field (.text "AAAA,EAAE".toList)))] := by decide +kernel

end WS
