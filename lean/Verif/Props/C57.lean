import Verif.Props.C56
/-!
# C57: which list-map statements throw

Claim: whether a statement of the list-map classes throws can be told from the program. A list map can
be used and put into another, a node can be put into one, unless it was made from an empty string; a list
map made from an array, or whose code was rewritten, can not be used.
-/

namespace WS
open Spec

/-! ## Spec -/

/-- What an object is good for. -/
inductive Spec.LKind where
  | nothing
  | node
  | map
  deriving DecidableEq

/-- The objects after a statement. -/
def Spec.kindsAfter (ks : List LKind) : LOp → List LKind
  | .newCode s => ks ++ [if s = [] then .nothing else .node]
  | .newSource s _ _ _ => ks ++ [if s = [] then .nothing else .node]
  | .newSingle s _ _ _ => ks ++ [if s = [] then .nothing else .node]
  | .newEmpty => ks ++ [.map]
  | .newMap _ _ _ => ks ++ [.map]
  | .newArray _ => ks ++ [.nothing]
  | .fromString _ _ _ _ _ => ks ++ [.map]
  | .listMap _ _ _ => ks ++ [.map]
  | .mapCode i _ => ks.set i .nothing ++ [.map]
  | _ => ks

/-- The objects of a program. -/
def Spec.kinds (ops : List LOp) : List LKind := ops.foldl kindsAfter []

/-- Can be put into a list map. -/
def Spec.Handable (ks : List LKind) : LArg → Prop
  | .str _ => True
  | .obj i => ks[i]? = some .node ∨ ks[i]? = some .map

/-- The statement does not throw. Nodes are never cloned; a single-line node needs a file; code can not be
rewritten by a replacement. -/
def Spec.Works (ks : List LKind) : LOp → Prop
  | .newSingle s source _ _ => s = [] ∨ truthy source ≠ none
  | .newMap a _ _ => Handable ks a
  | .newArray as => ∀ a ∈ as, Handable ks a
  | .add i a _ _ => Handable ks a ∧ ks[i]? = some .map
  | .prepend i a _ _ => Handable ks a ∧ ks[i]? = some .map
  | .clone _ => False
  | .mapCode i f => f ≠ .replace ∧ ks[i]? = some .map
  | .toString i => ks[i]? = some .map
  | .render i => ks[i]? = some .map
  | _ => True

/-- The statements the claim is about; for `fromStringWithSourceMap` and `listMap` see below. -/
def Spec.LOp.Own : LOp → Prop
  | .js _ => False
  | .fromString _ _ _ _ _ => False
  | .listMap _ _ _ => False
  | _ => True

/-! ## Proof -/

/-- What an object is good for. -/
def LVal.kind : LVal → LKind
  | .dead => .nothing
  | .broken => .nothing
  | .code _ => .node
  | .source _ => .node
  | .single _ => .node
  | .map _ => .map

theorem LWorld.add_kinds {w w' : LWorld} {i : Nat} {a : LArg} {source : Option Str} {original : JVal}
    (e : w.add i a source original = .ok w') : ∃ m m', w.lists[i]? = some (.map m) ∧
      w'.lists = w.lists.set i (.map m') := by
  simp only [LWorld.add, Except.bind_ok_iff, Except.map_ok_iff] at e
  obtain ⟨n, h1, m, h2, m', h3, rfl⟩ := e
  have ht := LWorld.target_some h2
  rw [LWorld.names_lists] at ht
  exact ⟨m, m', ht, by rw [LWorld.names_lists]⟩

theorem LWorld.prepend_kinds {w w' : LWorld} {i : Nat} {a : LArg} {source : Option Str} {original : JVal}
    (e : w.prepend i a source original = .ok w') : ∃ m m', w.lists[i]? = some (.map m) ∧
      w'.lists = w.lists.set i (.map m') := by
  simp only [LWorld.prepend, Except.bind_ok_iff, Except.map_ok_iff] at e
  obtain ⟨n, h1, m, h2, m', h3, rfl⟩ := e
  have ht := LWorld.target_some h2
  rw [LWorld.names_lists] at ht
  exact ⟨m, m', ht, by rw [LWorld.names_lists]⟩

theorem set_kind {l : List LVal} {i : Nat} {m m' : Slm} (h : l[i]? = some (.map m)) :
    (l.set i (.map m')).map LVal.kind = l.map LVal.kind := by
  rw [List.map_set]
  apply List.ext_getElem?
  intro j
  by_cases hj : i = j
  · subst hj
    rw [List.getElem?_set_self', List.getElem?_map, h]
    rfl
  · rw [List.getElem?_set_ne hj]

theorem kinds_run {w w' : LWorld} {op : LOp} {a : LAnswer} (r : op.run w = .ok (a, w')) :
    w'.lists.map LVal.kind = kindsAfter (w.lists.map LVal.kind) op := by
  cases op with
  | js op =>
    simp only [LOp.run] at r
    split at r
    · cases r
    · cases r; rfl
  | newCode s =>
    cases r
    simp only [LWorld.put, kindsAfter]
    split <;> simp [LVal.kind]
  | newSource s source original line =>
    simp only [LOp.run] at r
    split at r <;> cases r <;> simp_all [LWorld.put, kindsAfter, LVal.kind, LWorld.names_lists]
  | newSingle s source original line =>
    simp only [LOp.run] at r
    split at r
    · cases r; simp_all [LWorld.put, kindsAfter, LVal.kind]
    · split at r <;> cases r
      simp_all [LWorld.put, kindsAfter, LVal.kind, LWorld.names_lists]
  | newEmpty => cases r; simp [LWorld.put, kindsAfter, LVal.kind]
  | newMap a source original =>
    simp only [LOp.run] at r
    split at r
    · cases r; simp [LWorld.put, kindsAfter, LVal.kind]
    · simp only [Except.map_ok_iff] at r
      obtain ⟨w2, h1, h2⟩ := r
      cases h2
      simp only [Except.bind_ok_iff] at h1
      obtain ⟨-, -, h1⟩ := h1
      obtain ⟨m, m', h3, h4⟩ := LWorld.add_kinds h1
      rw [h4, set_kind h3]
      simp [LWorld.put, kindsAfter, LVal.kind]
  | newArray as =>
    simp only [LOp.run, Except.map_ok_iff] at r
    obtain ⟨_, -, h2⟩ := r
    cases h2
    simp [LWorld.put, kindsAfter, LVal.kind]
  | fromString code sources contents names mappings =>
    simp only [LOp.run, Except.map_ok_iff] at r
    obtain ⟨m, h1, h2⟩ := r
    cases h2
    simp [kindsAfter, LVal.kind]
  | listMap j c md =>
    simp only [LOp.run] at r
    split at r
    · cases r
    · split at r
      · cases r
      · split at r
        · cases r
        · cases r; simp [kindsAfter, LVal.kind]
        · cases r
  | add i a source original =>
    simp only [LOp.run, Except.map_ok_iff] at r
    obtain ⟨w2, h1, h2⟩ := r
    cases h2
    obtain ⟨m, m', h3, h4⟩ := LWorld.add_kinds h1
    rw [h4, set_kind h3]; rfl
  | prepend i a source original =>
    simp only [LOp.run, Except.map_ok_iff] at r
    obtain ⟨w2, h1, h2⟩ := r
    cases h2
    obtain ⟨m, m', h3, h4⟩ := LWorld.prepend_kinds h1
    rw [h4, set_kind h3]; rfl
  | clone i => cases r
  | mapCode i f =>
    simp only [LOp.run] at r
    split at r
    · cases r
    · simp only [Except.bind_ok_iff] at r
      obtain ⟨m, h1, h2⟩ := r
      split at h2
      · cases h2
      · cases h2; simp [kindsAfter, LVal.kind, List.map_set]
  | toString i =>
    simp only [LOp.run, Except.map_ok_iff] at r
    obtain ⟨_, -, h2⟩ := r
    cases h2; rfl
  | render i =>
    simp only [LOp.run, Except.map_ok_iff] at r
    obtain ⟨_, -, h2⟩ := r
    cases h2; rfl

theorem kinds_runFrom : ∀ {ops : List LOp} {w w' : LWorld}, w.runFrom ops = .ok w' →
    w'.lists.map LVal.kind = ops.foldl kindsAfter (w.lists.map LVal.kind)
  | [], _, _, r => by cases r; rfl
  | op :: ops, w, w', r => by
    simp only [LWorld.runFrom] at r
    split at r
    · cases r
    · rename_i h
      rw [kinds_runFrom r, kinds_run h]; rfl

theorem kinds_of_run {ops : List LOp} {w : LWorld} (r : LWorld.run ops = .ok w) :
    w.lists.map LVal.kind = kinds ops := kinds_runFrom r

theorem kind_get {l : List LVal} {i : Nat} {k : LKind} :
    (l.map LVal.kind)[i]? = some k ↔ ∃ v, l[i]? = some v ∧ v.kind = k := by
  rw [List.getElem?_map, Option.map_eq_some_iff]

theorem LWorld.node_iff (w : LWorld) (a : LArg) :
    (∃ n, w.node a = .ok n ∧ ∀ i, n ≠ .idx i) ↔ Handable (w.lists.map LVal.kind) a := by
  cases a with
  | str s => exact ⟨fun _ => trivial, fun _ => ⟨.str s, rfl, fun _ h => (by cases h)⟩⟩
  | obj i =>
    simp only [Handable, kind_get]
    cases hi : w.lists[i]? with
    | none => simp [LWorld.node, hi]
    | some v => cases v <;> simp [LWorld.node, hi, LVal.kind]

theorem LWorld.node_ok {w : LWorld} {a : LArg} {n : LNode} (e : w.node a = .ok n) : ∀ i, n ≠ .idx i := by
  cases a with
  | str s => cases e; exact fun _ h => by cases h
  | obj j =>
    simp only [LWorld.node] at e
    split at e <;> cases e <;> exact fun _ h => by cases h

theorem LWorld.target_iff (w : LWorld) (i : Nat) :
    (∃ m, w.target i = .ok m) ↔ (w.lists.map LVal.kind)[i]? = some .map := by
  rw [kind_get]
  cases hi : w.lists[i]? with
  | none => simp [LWorld.target, hi]
  | some v => cases v <;> simp [LWorld.target, hi, LVal.kind]

theorem slmAdd_ok {m : Slm} {n : LNode} (h : ∀ i, n ≠ .idx i) (s o : Option Int) :
    ∃ m', slmAdd m n s o = .ok m' := by
  cases n <;> first | exact ⟨_, rfl⟩ | exact absurd rfl (h _)

theorem slmPrepend_ok {m : Slm} {n : LNode} (h : ∀ i, n ≠ .idx i) (s o : Option Int) :
    ∃ m', slmPrepend m n s o = .ok m' := by
  cases n <;> first | exact ⟨_, rfl⟩ | (simp only [slmPrepend]; split <;> exact ⟨_, rfl⟩) | exact absurd rfl (h _)

theorem LWorld.names_target (w : LWorld) (source : Option Str) (original : JVal) (i : Nat) :
    (w.names source original).2.2.target i = w.target i := by
  simp only [LWorld.target, LWorld.names_lists]

theorem LWorld.add_iff (w : LWorld) (i : Nat) (a : LArg) (source : Option Str) (original : JVal) :
    (∃ w', w.add i a source original = .ok w') ↔
      Handable (w.lists.map LVal.kind) a ∧ (w.lists.map LVal.kind)[i]? = some .map := by
  rw [← LWorld.node_iff, ← LWorld.target_iff]
  constructor
  · rintro ⟨w', e⟩
    simp only [LWorld.add, Except.bind_ok_iff, Except.map_ok_iff] at e
    obtain ⟨n, h1, m, h2, m', h3, rfl⟩ := e
    exact ⟨⟨n, h1, LWorld.node_ok h1⟩, m, by rw [← LWorld.names_target w source original]; exact h2⟩
  · rintro ⟨⟨n, h1, hn⟩, m, h2⟩
    rw [← LWorld.names_target w source original] at h2
    obtain ⟨m', h3⟩ := slmAdd_ok (m := m) hn (w.names source original).1 (w.names source original).2.1
    simp only [LWorld.add, Except.bind_ok_iff, Except.map_ok_iff]
    exact ⟨_, n, h1, m, h2, m', by rw [h3]; rfl, rfl⟩

theorem LWorld.prepend_iff (w : LWorld) (i : Nat) (a : LArg) (source : Option Str) (original : JVal) :
    (∃ w', w.prepend i a source original = .ok w') ↔
      Handable (w.lists.map LVal.kind) a ∧ (w.lists.map LVal.kind)[i]? = some .map := by
  rw [← LWorld.node_iff, ← LWorld.target_iff]
  constructor
  · rintro ⟨w', e⟩
    simp only [LWorld.prepend, Except.bind_ok_iff, Except.map_ok_iff] at e
    obtain ⟨n, h1, m, h2, m', h3, rfl⟩ := e
    exact ⟨⟨n, h1, LWorld.node_ok h1⟩, m, by rw [← LWorld.names_target w source original]; exact h2⟩
  · rintro ⟨⟨n, h1, hn⟩, m, h2⟩
    rw [← LWorld.names_target w source original] at h2
    obtain ⟨m', h3⟩ := slmPrepend_ok (m := m) hn (w.names source original).1 (w.names source original).2.1
    simp only [LWorld.prepend, Except.bind_ok_iff, Except.map_ok_iff]
    exact ⟨_, n, h1, m, h2, m', by rw [h3]; rfl, rfl⟩

theorem LWorld.nodes_iff (w : LWorld) : ∀ as : List LArg,
    (∃ ns, w.nodes as = .ok ns) ↔ ∀ a ∈ as, Handable (w.lists.map LVal.kind) a
  | [] => ⟨fun _ a ha => (by cases ha), fun _ => ⟨[], rfl⟩⟩
  | a :: as => by
    have ih := LWorld.nodes_iff w as
    constructor
    · rintro ⟨ns, e⟩
      simp only [LWorld.nodes, Except.bind_ok_iff, Except.map_ok_iff] at e
      obtain ⟨n, h1, ns', h2, rfl⟩ := e
      intro b hb
      rcases List.mem_cons.1 hb with rfl | hb
      · exact (LWorld.node_iff w _).1 ⟨n, h1, LWorld.node_ok h1⟩
      · exact ih.1 ⟨ns', h2⟩ b hb
    · intro h
      obtain ⟨n, h1, -⟩ := (LWorld.node_iff w a).2 (h a (by simp))
      obtain ⟨ns, h2⟩ := ih.2 (fun b hb => h b (by simp [hb]))
      exact ⟨n :: ns, by simp only [LWorld.nodes, h1, h2]; rfl⟩

/-- C57. -/
theorem C57_exact (ops : List LOp) (w : LWorld) (op : LOp) (r : LWorld.run ops = .ok w) (ho : Spec.LOp.Own op) :
    (∃ a w', op.run w = .ok (a, w')) ↔ Works (kinds ops) op := by
  rw [← kinds_of_run r]
  have pairs : ∀ x : Except LErr LWorld, (∃ a w', (x.map fun w => (LAnswer.done, w)) = .ok (a, w')) ↔ ∃ w', x = .ok w' := by
    intro x
    cases x with
    | error e => exact ⟨fun ⟨_, _, h⟩ => (by cases h), fun ⟨_, h⟩ => (by cases h)⟩
    | ok y => exact ⟨fun _ => ⟨y, rfl⟩, fun _ => ⟨_, _, rfl⟩⟩
  cases op with
  | js op => exact ho.elim
  | fromString code sources contents names mappings => exact ho.elim
  | listMap j c md => exact ho.elim
  | newCode s => exact ⟨fun _ => trivial, fun _ => ⟨_, _, rfl⟩⟩
  | newSource s source original line =>
    refine ⟨fun _ => trivial, fun _ => ?_⟩
    simp only [LOp.run]
    split <;> exact ⟨_, _, rfl⟩
  | newSingle s source original line =>
    simp only [LOp.run, Works]
    split
    · rename_i h; exact ⟨fun _ => .inl h, fun _ => ⟨_, _, rfl⟩⟩
    · rename_i h
      split
      · rename_i h2; exact ⟨fun ⟨_, _, e⟩ => (by cases e), fun e => absurd h2 (e.resolve_left h)⟩
      · rename_i h2; exact ⟨fun _ => .inr h2, fun _ => ⟨_, _, rfl⟩⟩
  | newEmpty => exact ⟨fun _ => trivial, fun _ => ⟨_, _, rfl⟩⟩
  | newMap a source original =>
    simp only [LOp.run, Works]
    split
    · rename_i h; obtain ⟨rfl, -⟩ := h; exact ⟨fun _ => trivial, fun _ => ⟨_, _, rfl⟩⟩
    · rw [pairs]
      simp only [Except.bind_ok_iff]
      constructor
      · rintro ⟨w', n, h1, -⟩
        exact (LWorld.node_iff w a).1 ⟨n, h1, LWorld.node_ok h1⟩
      · intro h
        obtain ⟨n, h1, -⟩ := (LWorld.node_iff w a).2 h
        have hl : ((w.put (.map [])).lists.map LVal.kind) = w.lists.map LVal.kind ++ [.map] := by
          simp [LWorld.put, LVal.kind]
        have := (LWorld.add_iff (w.put (.map [])) w.lists.length a source original).2 (by
          rw [hl]
          refine ⟨?_, by rw [List.getElem?_append_right (by simp)]; simp⟩
          cases a with
          | str s => trivial
          | obj i => exact h.imp getElem?_append_some getElem?_append_some)
        obtain ⟨w', h2⟩ := this
        exact ⟨w', n, h1, h2⟩
  | newArray as =>
    have : (∃ a w', (LOp.newArray as).run w = .ok (a, w')) ↔ ∃ ns, w.nodes as = .ok ns := by
      simp only [LOp.run]
      cases w.nodes as with
      | error e => exact ⟨fun ⟨_, _, h⟩ => (by cases h), fun ⟨_, h⟩ => (by cases h)⟩
      | ok y => exact ⟨fun _ => ⟨y, rfl⟩, fun _ => ⟨_, _, rfl⟩⟩
    rw [this]; exact LWorld.nodes_iff w as
  | add i a source original => simp only [LOp.run, pairs]; exact LWorld.add_iff ..
  | prepend i a source original => simp only [LOp.run, pairs]; exact LWorld.prepend_iff ..
  | clone i => exact ⟨fun ⟨_, _, e⟩ => (by cases e), False.elim⟩
  | mapCode i f =>
    simp only [Works]
    rw [← LWorld.target_iff]
    cases f with
    | replace => exact ⟨fun ⟨_, _, e⟩ => (by cases e), fun h => absurd rfl h.1⟩
    | _ =>
      simp only [LOp.run, MapFn.apply]
      cases w.target i with
      | error e => exact ⟨fun ⟨_, _, h⟩ => (by cases h), fun ⟨_, _, h⟩ => (by cases h)⟩
      | ok m => exact ⟨fun _ => ⟨(by intro h; cases h), m, rfl⟩, fun _ => ⟨_, _, rfl⟩⟩
  | toString i =>
    simp only [Works, LOp.run]
    rw [← LWorld.target_iff]
    cases w.target i with
    | error e => exact ⟨fun ⟨_, _, h⟩ => (by cases h), fun ⟨_, h⟩ => (by cases h)⟩
    | ok m => exact ⟨fun _ => ⟨m, rfl⟩, fun _ => ⟨_, _, rfl⟩⟩
  | render i =>
    simp only [Works, LOp.run]
    rw [← LWorld.target_iff]
    cases w.target i with
    | error e => exact ⟨fun ⟨_, _, h⟩ => (by cases h), fun ⟨_, h⟩ => (by cases h)⟩
    | ok m => exact ⟨fun _ => ⟨m, rfl⟩, fun _ => ⟨_, _, rfl⟩⟩

theorem World.internAll_length (vs : List JVal) : ∀ (w : World), (w.internAll vs).1.length = vs.length := by
  induction vs with
  | nil => intro w; rfl
  | cons v vs ih => intro w; simp only [World.internAll, List.length_cons, ih]

/-- C57, reading: a map that can be described (well-formed, sizes within 32 bits) is read. -/
theorem C57_fromString (w : LWorld) (code : Str) (sources contents names : List JVal) (mappings : Str)
    (h : (mapped code sources names mappings).isSome) :
    ∃ w', (LOp.fromString code sources contents names mappings).run w = .ok (.done, w') := by
  simp only [mapped] at h
  split at h
  · cases h
  rename_i ps hps
  split at h
  case isFalse => cases h
  rename_i hs
  have hlen := World.internAll_length sources w.base
  have hp2 : points (w.base.internAll sources).1 (idTable names.length) mappings =
      some (ps.map (renamePoint (w.base.internAll sources).1)) := by
    rw [points_rename, hlen, hps]; rfl
  have hsm : ∀ p ∈ ps.map (renamePoint (w.base.internAll sources).1), ∀ o, p.origin = some o →
      o.line < 4294967296 := by
    intro p hp o ho
    obtain ⟨q, hq, rfl⟩ := List.mem_map.1 hp
    simp only [renamePoint, Option.map_eq_some_iff] at ho
    obtain ⟨o', ho', rfl⟩ := ho
    have := List.all_eq_true.1 hs.2 q hq
    rw [ho'] at this
    simpa [renameOrigin] using this
  obtain ⟨m, hm, -, -⟩ := slmFromString_origins code _ ((w.base.internAll sources).2.internAllNew contents).1
    (idTable names.length) mappings _ hp2 (by rw [hlen]; exact hs.1) hsm _ (isLines_splitKeep '\n' code)
  have e : (LOp.fromString code sources contents names mappings).run w =
      (liftM (slmFromString code (w.base.internAll sources).1
        ((w.base.internAll sources).2.internAllNew contents).1 mappings)).map fun m =>
      (.done, { w with base := ((w.base.internAll sources).2.internAllNew contents).2,
                       lists := w.lists ++ [.map m] }) := rfl
  rw [hm] at e
  exact ⟨_, e⟩

/-- C57: a `RawSource` has no list map. -/
theorem C57_raw (w : LWorld) (j : Nat) (o : JObj) (columns module_ : Bool) (h : w.base.objs[j]? = some o)
    {s : Str} (hr : o.kind = .raw s) : (LOp.listMap j columns module_).run w = .error .notFunction := by
  simp only [LOp.run, h, hr]

/-! Non-trivial cases: a program that runs, with the uses its objects have; programs that throw. -/

/-- The exception a program ends with. -/
def thrown (ops : List LOp) : Option LErr :=
  match LWorld.run ops with
  | .ok _ => none
  | .error e => some e

example : kinds c56Program = [.node, .node, .node, .map, .map, .nothing, .map] := by decide +kernel
example : thrown c56Program = none ∧ Works (kinds c56Program) (.add 6 (.obj 3) none none) ∧
    ¬ Works (kinds c56Program) (.render 5) :=
  ⟨by decide +kernel, ⟨.inr rfl, rfl⟩, by intro h; cases h⟩
example : thrown (c56Program ++ [.add 6 (.obj 3) none none]) = none ∧
    thrown (c56Program ++ [.render 5]) = some .moved := ⟨by decide +kernel, by decide +kernel⟩
example : thrown [.newCode [], .newEmpty, .add 1 (.obj 0) none none] = some .null ∧
    thrown [.newArray [.str "a".toList]] = none ∧
    thrown [.newArray [.str "a".toList], .toString 0] = some .null ∧
    thrown [.newSingle "a".toList none none 1] = some .notFunction ∧
    thrown [.newEmpty, .mapCode 0 .replace] = some .notFunction ∧
    thrown [.js (.newRaw "a".toList), .listMap 0 true true] = some .notFunction :=
  ⟨by decide +kernel, by decide +kernel, by decide +kernel, by decide +kernel, by decide +kernel,
   by decide +kernel⟩
example : (mapped "p\n\nq\n".toList [some "h.js".toList, none] [] "AAAA;;ACCA".toList).isSome = true := by
  decide +kernel

end WS
