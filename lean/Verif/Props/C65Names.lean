import Verif.Props.C65
/-!
# C65: names

Claim: where no two characters of the unedited code share a file, line and column but not the name, the map of
`sourceAndMap()` of an edited object gives every character that was not put in by a request its name, too.
-/

namespace WS
open Spec

/-! ## Spec -/

/-- The pair `k` has the text of `m`, and its map gives each of the characters the file, line, column and name
that `m` gives it, if any. -/
def Spec.KeepsNames (w : World) (k : Nat) (m : PlacedMarks) : Prop :=
  Reads w k .source (.text (m.map Prod.fst)) ∧
  ∃ l ns s ps, Reads w k .sources (.list l) ∧ Reads w k .names (.list ns) ∧ Reads w k .mappings (.text s) ∧
    points (idTable l.length) (idTable ns.length) s = some ps ∧
    ∀ i c p, m[i]? = some (c, some p) →
      (lookup ps (posAfter ((m.take i).map Prod.fst)).1 (posAfter ((m.take i).map Prod.fst)).2).map
        (fun x => (l[x.source.toNat]?, x.line, x.col, x.name.map fun n => ns[n.toNat]?)) =
        some (some p.file, p.line, p.col, p.name.map some)

/-- One place, one name. -/
def Spec.OneName (u : PlacedMarks) : Prop :=
  ∀ p ∈ u.filterMap Prod.snd, ∀ q ∈ u.filterMap Prod.snd,
    p.file = q.file → p.line = q.line → p.col = q.col → p.name = q.name

instance (u : PlacedMarks) : Decidable (OneName u) := by unfold OneName; infer_instance

/-! ## What an object carries comes from the unedited code -/

theorem indentRestP_from (pre : List Char) : ∀ (m : PlacedMarks) (x : Char × Option Place),
    x ∈ indentRestP pre m → x.2 = none ∨ x.2 ∈ m.map Prod.snd
  | [], x, h => by cases h
  | (c, o) :: m, x, h => by
    rw [indentRestP] at h
    rcases List.mem_cons.1 h with rfl | h
    · exact .inr (by simp)
    rcases List.mem_append.1 h with h | h
    · split at h
      · obtain ⟨d, -, rfl⟩ := List.mem_map.1 h
        cases m with
        | nil => exact .inl rfl
        | cons y m => exact .inr (by simp)
      · cases h
    · rcases indentRestP_from pre m x h with h | h
      · exact .inl h
      · exact .inr (List.mem_cons_of_mem _ h)

theorem indentP_from (pre : List Char) (m : PlacedMarks) (x : Char × Option Place) (h : x ∈ indentP pre m) :
    x.2 = none ∨ x.2 ∈ m.map Prod.snd := by
  unfold indentP at h
  split at h
  · cases h
  rcases List.mem_append.1 h with h | h
  · obtain ⟨d, -, rfl⟩ := List.mem_map.1 h
    cases m with
    | nil => exact .inl rfl
    | cons y m => exact .inr (by simp)
  · exact indentRestP_from pre m x h

theorem applyRightP_from : ∀ (es : List Edit) (m : PlacedMarks) (x : Char × Option Place), x ∈ applyRightP m es →
    x.2 = none ∨ x.2 ∈ m.map Prod.snd
  | [], m, x, h => .inr (List.mem_map_of_mem h)
  | e :: es, m, x, h => by
    rw [applyRightP] at h
    rcases List.mem_append.1 h with h | h
    · rcases List.mem_append.1 h with h | h
      · rcases applyRightP_from es _ x h with h | h
        · exact .inl h
        · obtain ⟨y, hy, e⟩ := List.mem_map.1 h
          exact .inr (List.mem_map.2 ⟨y, List.mem_of_mem_take (List.mem_of_mem_take hy), e⟩)
      · obtain ⟨d, -, rfl⟩ := List.mem_map.1 h
        exact .inl rfl
    · exact .inr (List.mem_map_of_mem (List.mem_of_mem_drop h))

theorem Spec.JCarries.sub {st : List JThing} {made : List JOp} (T : Together made st) {src : JSrc}
    {m : PlacedMarks} (h : JCarries st made src m) : ∀ {u : PlacedMarks}, Steady st src → JUnedited st made src u →
    ∀ x ∈ m, x.2 = none ∨ x.2 ∈ u.map Prod.snd := by
  induction h with
  | str s =>
    intro u _ _ x hx
    obtain ⟨c, -, rfl⟩ := List.mem_map.1 hx
    exact .inl rfl
  | leaf h1 h2 =>
    intro u _ hu x hx
    cases hu with
    | leaf g1 g2 => rw [JPlaces.unique T h2 (.leaf h1) g2]; exact .inr (List.mem_map_of_mem hx)
    | prefixed g1 => rw [h1] at g1; cases g1
    | replaced g1 => rw [h1] at g1; cases g1
    | joined g1 => rw [h1] at g1; cases g1
  | prefixed h1 h2 h3 h4 ih =>
    intro u hs hu x hx
    cases hs with
    | leaf f => rw [h1] at f; cases f
    | replaced f => rw [h1] at f; cases f
    | joined f => rw [h1] at f; cases f
    | prefixed f hun =>
      rw [h1] at f; cases f
      cases hu with
      | leaf g1 => rw [h1] at g1; cases g1
      | replaced g1 => rw [h1] at g1; cases g1
      | joined g1 => rw [h1] at g1; cases g1
      | prefixed g1 g2 =>
        rw [h1] at g1; cases g1
        rw [h4 hun] at hx
        rcases indentP_from _ _ x hx with h | h
        · exact .inl h
        · obtain ⟨y, hy, e⟩ := List.mem_map.1 h
          rw [← e]; exact ih hun.steady g2 y hy
  | replaced h1 h2 h3 ih =>
    intro u hs hu x hx
    cases hs with
    | leaf f => rw [h1] at f; cases f
    | prefixed f => rw [h1] at f; cases f
    | joined f => rw [h1] at f; cases f
    | replaced f hs' =>
      rw [h1] at f; cases f
      cases hu with
      | leaf g1 => rw [h1] at g1; cases g1
      | prefixed g1 => rw [h1] at g1; cases g1
      | joined g1 => rw [h1] at g1; cases g1
      | replaced g1 g2 =>
        rw [h1] at g1; cases g1
        rcases applyRightP_from _ _ x hx with h | h
        · exact .inl h
        · obtain ⟨y, hy, e⟩ := List.mem_map.1 h
          rw [← e]; exact ih hs' g2 y hy
  | @joined j its ms h1 h2 h3 ih =>
    intro u hs hu x hx
    cases hs with
    | leaf f => rw [h1] at f; cases f
    | prefixed f => rw [h1] at f; cases f
    | replaced f => rw [h1] at f; cases f
    | joined f hs' =>
      rw [h1] at f; cases f
      cases hu with
      | leaf g1 => rw [h1] at g1; cases g1
      | prefixed g1 => rw [h1] at g1; cases g1
      | replaced g1 => rw [h1] at g1; cases g1
      | @joined _ its' us g1 g2 g3 =>
        rw [h1] at g1; cases g1
        obtain ⟨m, hm, hx⟩ := List.mem_flatten.1 hx
        obtain ⟨k, hk⟩ := List.getElem?_of_mem hm
        have hlt := (List.getElem?_eq_some_iff.1 hk).1
        have e1 : its[k]? = some (its[k]'(by omega)) := List.getElem?_eq_getElem (by omega)
        have e2 : us[k]? = some (us[k]'(by omega)) := List.getElem?_eq_getElem (by omega)
        rcases ih k _ _ e1 hk (hs' _ (List.getElem_mem _)) (g3 k _ _ e1 e2) x hx with h | h
        · exact .inl h
        · refine .inr ?_
          obtain ⟨y, hy, e⟩ := List.mem_map.1 h
          exact List.mem_map.2 ⟨y, List.mem_flatten.2 ⟨_, List.getElem_mem _, hy⟩, e⟩

/-! ## The claim -/

theorem KeepsNear.names {w : World} {k : Nat} {m u : PlacedMarks} (h : KeepsNear w k m u) (ho : OneName u)
    (hs : ∀ x ∈ m, x.2 = none ∨ x.2 ∈ u.map Prod.snd) : KeepsNames w k m := by
  obtain ⟨h1, l, ns, s, ps, h2, h3, h4, h5, h6⟩ := h
  refine ⟨h1, l, ns, s, ps, h2, h3, h4, h5, fun i c p hi => ?_⟩
  obtain ⟨n, h7, h8, a, ha, a1, a2, a3, a4⟩ := h6 i c p hi
  rw [h7]
  have mem : ∀ {q : Place}, some q ∈ u.map Prod.snd → q ∈ u.filterMap Prod.snd := fun {q} hq => by
    obtain ⟨y, hy, e⟩ := List.mem_map.1 hq
    exact List.mem_filterMap.2 ⟨y, hy, e⟩
  have hp : some p ∈ u.map Prod.snd := by
    rcases hs _ (List.mem_of_getElem? hi) with h | h
    · cases h
    · exact h
  have hn : a.name = p.name := ho a (mem ha) p (mem hp) a1 a2 a3
  have : n = p.name := by
    rcases a4 with rfl | rfl
    · cases hpn : p.name with
      | none => rfl
      | some x => rw [hpn] at h8; cases h8 rfl
    · exact hn
  rw [this]

/-- C65 with names, where in the unedited code (`u`) one place has one name. Otherwise false
(`C65_names_not_general`). -/
theorem C65_names_partial (ops more : List JOp) (w w1 w2 : World) (j k : Nat) (module_ : Bool) (m u : PlacedMarks)
    (r : World.run ops = .ok w) (hp : ∀ op ∈ ops, op.Proper) (hf : ∀ op ∈ ops, Spec.JOp.FewLines op)
    (hr : ∀ op ∈ ops, Spec.JOp.Exact op) (hah : ∀ op ∈ ops, Spec.JOp.Ahead op)
    (ho : Orderly (jthings ops) (jmade ops) (mentions ops) (.obj j)) (hs : Steady (jthings ops) (.obj j))
    (hm : JCarries (jthings ops) (jmade ops) (.obj j) m) (hu : JUnedited (jthings ops) (jmade ops) (.obj j) u)
    (hn : OneName u)
    (e : (JOp.sourceAndMap j true module_).run w = .ok (.pair k, w1)) (e2 : w1.runFrom more = .ok w2)
    (hg : ∀ op ∈ more, ¬ op.gives k) (hset : ∀ a, .set k a ∉ more) : KeepsNames w2 k m := by
  obtain ⟨m', u', h1, h2, h3⟩ := World.run_carries_near ops more w w1 w2 j k module_ r hp hf hr hah ho e e2 hg hset
  have T : Together (jmade ops) (jthings ops) := by
    exact together ops (made := []) (st := []) ⟨rfl, fun j op x h => by simp at h⟩
  rw [hm.unique T hs h1, hu.unique T h2] at h3
  exact h3.names hn (hm.sub T hs hu)

/-! Non-trivial case: a code with three mappings, two of them with names; one is deleted, one is cut short. -/

/-- The program. -/
def c65NamesProgram : List JOp :=
  [.newSms "abcd\n".toList "s.js".toList (.plain [some "h.js".toList] [] [some "n".toList, some "k".toList]
     "AAAAA,CAAK,CAAIC".toList) none none,
   .newReplace (.obj 0), .replace 1 1 1 [], .replace 1 3 3 "XY".toList, .newPrefix "> ".toList (.obj 0),
   .newConcat [.obj 1, .str "/".toList, .obj 2]]

/-- What it says of its first object. -/
def c65NamesCode : PlacedMarks :=
  c63From "a" "h.js" 1 0 (some "n") ++ c63From "b" "h.js" 1 5 none ++ c63From "cd\n" "h.js" 1 9 (some "k")

/-- What it says of its last object. -/
def c65NamesMarks : PlacedMarks :=
  c63From "a" "h.js" 1 0 (some "n") ++ c63From "c" "h.js" 1 9 (some "k") ++ [('X', none), ('Y', none)] ++
  c63From "\n" "h.js" 1 9 (some "k") ++ [('/', none)] ++
  c63From "> a" "h.js" 1 0 (some "n") ++ c63From "b" "h.js" 1 5 none ++ c63From "cd\n" "h.js" 1 9 (some "k")

/-- The mappings of the first object. -/
theorem c65Names_points : points (idTable 1) (idTable 2) "AAAAA,CAAK,CAAIC".toList =
    some [⟨1, 0, some ⟨0, 1, 0, some 0⟩⟩, ⟨1, 1, some ⟨0, 1, 5, none⟩⟩, ⟨1, 2, some ⟨0, 1, 9, some 1⟩⟩] := by
  decide +kernel

theorem c65Names_leaf : JPlaces (jthings c65NamesProgram) (jmade c65NamesProgram) (.obj 0) c65NamesCode := by
  have e : c65NamesCode = placedBy (told [some "h.js".toList] [some "n".toList, some "k".toList]
      [⟨1, 0, some ⟨0, 1, 0, some 0⟩⟩, ⟨1, 1, some ⟨0, 1, 5, none⟩⟩, ⟨1, 2, some ⟨0, 1, 9, some 1⟩⟩]) (1, 0)
      "abcd\n".toList := by decide +kernel
  rw [e]
  exact .sms (n := "s.js".toList) (cs := []) (mp := "AAAAA,CAAK,CAAIC".toList) (o := none) rfl c65Names_points

example : (∀ op ∈ c65NamesProgram, op.Proper) ∧ (∀ op ∈ c65NamesProgram, Spec.JOp.FewLines op) ∧
    (∀ op ∈ c65NamesProgram, Spec.JOp.Ahead op) ∧ ∀ op ∈ c65NamesProgram, Spec.JOp.Exact op := by
  refine ⟨?_, ?_, ?_, ?_⟩
  · simp [c65NamesProgram, JOp.Proper]
    simp only [Spec.Proper]
    decide +kernel
  · simp only [c65NamesProgram, List.forall_mem_cons, Spec.JOp.FewLines]
    unfold Spec.FewLines
    exact ⟨by decide, trivial, by decide, by decide, trivial, trivial, by simp⟩
  · simp only [c65NamesProgram, List.forall_mem_cons, Spec.JOp.Ahead]
    exact ⟨trivial, trivial, by decide +kernel, by decide +kernel, trivial, trivial, by simp⟩
  · intro op h
    simp only [c65NamesProgram, List.mem_cons, List.not_mem_nil, or_false] at h
    rcases h with rfl | rfl | rfl | rfl | rfl | rfl
    · exact ⟨⟨_, _, _, _, rfl, _, c65Names_points, by simp [Point.Small], by simp [Point.Lt], by decide +kernel⟩,
        fun i hi => by cases hi⟩
    all_goals trivial

/-- The edited object. -/
theorem c65Names_edited : JCarries (jthings c65NamesProgram) (jmade c65NamesProgram) (.obj 1)
    (c63From "a" "h.js" 1 0 (some "n") ++ c63From "c" "h.js" 1 9 (some "k") ++ [('X', none), ('Y', none)] ++
      c63From "\n" "h.js" 1 9 (some "k")) := by
  refine .replaced (es := [(⟨3, 3, "XY".toList⟩, 1), (⟨1, 1, []⟩, 0)]) (c := .obj 0)
    (rs := [⟨1, 1, []⟩, ⟨3, 3, "XY".toList⟩]) (m := c65NamesCode)
    (by decide +kernel) ⟨.swap _ _ _, by simp [Before]; decide +kernel⟩ ?_
  exact .leaf rfl c65Names_leaf

set_option synthInstance.maxSize 1000 in
example : JCarries (jthings c65NamesProgram) (jmade c65NamesProgram) (.obj 3) c65NamesMarks := by
  have e : c65NamesMarks = [c63From "a" "h.js" 1 0 (some "n") ++ c63From "c" "h.js" 1 9 (some "k") ++
      [('X', none), ('Y', none)] ++ c63From "\n" "h.js" 1 9 (some "k"), ("/".toList.map fun c => (c, none)),
      indentP "> ".toList c65NamesCode].flatten := by decide +kernel
  rw [e]
  refine .joined (items := [.obj 1, .str "/".toList, .obj 2]) (by decide +kernel) rfl ?_
  intro k i m hi hm
  match k, hi, hm with
  | 0, hi, hm => cases hi; cases hm; exact c65Names_edited
  | 1, hi, hm => cases hi; cases hm; exact .str _
  | 2, hi, hm =>
    cases hi; cases hm
    exact .prefixed (p := "> ".toList) (c := .obj 0) (by decide +kernel) (.leaf rfl c65Names_leaf)
      (prefixedP_indent _ _) fun _ => rfl
  | k + 3, hi, hm => simp at hi

example : Steady (jthings c65NamesProgram) (.obj 3) := by
  refine .joined (items := [.obj 1, .str "/".toList, .obj 2]) (by decide +kernel) ?_
  intro i hi
  simp only [List.mem_cons, List.not_mem_nil, or_false] at hi
  rcases hi with rfl | rfl | rfl
  · exact .replaced (c := .obj 0) (rs := [⟨1, 1, []⟩, ⟨3, 3, "XY".toList⟩]) (by decide +kernel) (.leaf rfl)
  · exact .str _
  · exact .prefixed (p := "> ".toList) (c := .obj 0) (by decide +kernel) (.leaf rfl)

set_option synthInstance.maxSize 1000 in
example : ∃ u, JUnedited (jthings c65NamesProgram) (jmade c65NamesProgram) (.obj 3) u ∧ OneName u := by
  refine ⟨[c65NamesCode, ("/".toList.map fun c => (c, none)), c65NamesCode].flatten, ?_, by decide +kernel⟩
  refine .joined (items := [.obj 1, .str "/".toList, .obj 2]) (by decide +kernel) rfl ?_
  intro k i m hi hm
  match k, hi, hm with
  | 0, hi, hm =>
    cases hi; cases hm
    exact .replaced (c := .obj 0) (rs := [⟨1, 1, []⟩, ⟨3, 3, "XY".toList⟩]) (by decide +kernel)
      (.leaf rfl c65Names_leaf)
  | 1, hi, hm => cases hi; cases hm; exact .str _
  | 2, hi, hm =>
    cases hi; cases hm
    exact .prefixed (p := "> ".toList) (c := .obj 0) (by decide +kernel) (.leaf rfl c65Names_leaf)
  | k + 3, hi, hm => simp at hi

example : Orderly (jthings c65NamesProgram) (jmade c65NamesProgram) (mentions c65NamesProgram) (.obj 3) := by
  refine .joined (items := [.obj 1, .str "/".toList, .obj 2]) (by decide +kernel) ?_ ?_
  · intro i hi
    simp only [List.mem_cons, List.not_mem_nil, or_false] at hi
    rcases hi with rfl | rfl | rfl
    · exact .forwards (u := c65NamesCode)
        (.replaced (c := .obj 0) (rs := [⟨1, 1, []⟩, ⟨3, 3, "XY".toList⟩]) (by decide +kernel)
          (.leaf rfl c65Names_leaf)) (by decide +kernel)
    · exact .unreplaced (.str _ (.inl rfl))
    · exact .unreplaced (.prefixed (p := "> ".toList) (c := .obj 0) (by decide +kernel) (.leaf rfl))
  · intro k i hi
    match k, hi with
    | 0, hi => exact .inr (.inr ⟨_, rfl, .inl ⟨_, rfl, by decide⟩⟩)
    | 1, hi => cases hi; exact .inl (.str _ (.inl rfl))
    | 2, hi => exact .inr (.inl rfl)
    | k + 3, hi => simp at hi

example : ((World.run (c65NamesProgram ++ [.sourceAndMap 3 true true])).toOption.map fun w =>
    [JField.source, .sources, .names, .mappings].map fun f => ((JOp.get 0 f).run w).toOption.map Prod.fst) =
    some [some (.field (.text "acXY\n/> abcd\n".toList)), some (.field (.list [some "h.js".toList])),
      some (.field (.list [some "n".toList, some "k".toList])),
      some (.field (.text "AAAAA,CAAK,AAAIC,CAAA,EAAAA;CAATD,GAAK,CAAIC".toList))] := by decide +kernel

/-! ## Two names of one place -/

/-- Two characters from one place, the first with a name; the first is deleted. -/
def C65_twoNames : List JOp :=
  [.newSms "fg".toList "s.js".toList (.plain [some "h.js".toList] [] [some "n".toList] "AAAAA,CAAA".toList) none none,
   .newReplace (.obj 0), .replace 1 0 0 []]

/-- Its code. -/
def C65_twoNamesCode : PlacedMarks := c63From "f" "h.js" 1 0 (some "n") ++ c63From "g" "h.js" 1 0 none

theorem C65_twoNames_points : points (idTable 1) (idTable 1) "AAAAA,CAAA".toList =
    some [⟨1, 0, some ⟨0, 1, 0, some 0⟩⟩, ⟨1, 1, some ⟨0, 1, 0, none⟩⟩] := by
  decide +kernel

/-- Without `OneName` the claim is false: all the rest is as required, and the map gives the character that is
left the name of the deleted one. -/
theorem C65_names_not_general :
    (∀ op ∈ C65_twoNames, op.Proper) ∧ (∀ op ∈ C65_twoNames, Spec.JOp.FewLines op) ∧
    (∀ op ∈ C65_twoNames, Spec.JOp.Exact op) ∧ (∀ op ∈ C65_twoNames, Spec.JOp.Ahead op) ∧
    Orderly (jthings C65_twoNames) (jmade C65_twoNames) (mentions C65_twoNames) (.obj 1) ∧
    Steady (jthings C65_twoNames) (.obj 1) ∧
    JCarries (jthings C65_twoNames) (jmade C65_twoNames) (.obj 1) (c63From "g" "h.js" 1 0 none) ∧
    ∃ w w1, World.run C65_twoNames = .ok w ∧ (JOp.sourceAndMap 1 true true).run w = .ok (.pair 0, w1) ∧
      KeepsPlaces w1 0 (c63From "g" "h.js" 1 0 none) ∧ ¬ KeepsNames w1 0 (c63From "g" "h.js" 1 0 none) := by
  have hl : JPlaces (jthings C65_twoNames) (jmade C65_twoNames) (.obj 0) C65_twoNamesCode := by
    have e : C65_twoNamesCode = placedBy (told [some "h.js".toList] [some "n".toList]
        [⟨1, 0, some ⟨0, 1, 0, some 0⟩⟩, ⟨1, 1, some ⟨0, 1, 0, none⟩⟩]) (1, 0) "fg".toList := by decide +kernel
    rw [e]
    exact .sms (n := "s.js".toList) (cs := []) (mp := "AAAAA,CAAA".toList) (o := none) rfl C65_twoNames_points
  have hm : JCarries (jthings C65_twoNames) (jmade C65_twoNames) (.obj 1) (c63From "g" "h.js" 1 0 none) :=
    .replaced (es := [(⟨0, 0, []⟩, 0)]) (c := .obj 0) (rs := [⟨0, 0, []⟩]) (m := C65_twoNamesCode) (by decide +kernel)
      ⟨.refl _, by simp⟩ (.leaf rfl hl)
  have hs : Steady (jthings C65_twoNames) (.obj 1) :=
    .replaced (c := .obj 0) (rs := [⟨0, 0, []⟩]) (by decide +kernel) (.leaf rfl)
  have ho : Orderly (jthings C65_twoNames) (jmade C65_twoNames) (mentions C65_twoNames) (.obj 1) :=
    .forwards (u := C65_twoNamesCode) (.replaced (c := .obj 0) (rs := [⟨0, 0, []⟩]) (by decide +kernel)
      (.leaf rfl hl)) (by decide +kernel)
  have p1 : ∀ op ∈ C65_twoNames, op.Proper := by
    simp [C65_twoNames, JOp.Proper]
    simp only [Spec.Proper]
    decide +kernel
  have p2 : ∀ op ∈ C65_twoNames, Spec.JOp.FewLines op := by
    simp only [C65_twoNames, List.forall_mem_cons, Spec.JOp.FewLines]
    unfold Spec.FewLines
    exact ⟨by decide, trivial, by decide, by simp⟩
  have p3 : ∀ op ∈ C65_twoNames, Spec.JOp.Exact op := by
    intro op h
    simp only [C65_twoNames, List.mem_cons, List.not_mem_nil, or_false] at h
    rcases h with rfl | rfl | rfl
    · exact ⟨⟨_, _, _, _, rfl, _, C65_twoNames_points, by simp [Point.Small], by simp [Point.Lt], by decide +kernel⟩,
        fun i hi => by cases hi⟩
    all_goals trivial
  have p4 : ∀ op ∈ C65_twoNames, Spec.JOp.Ahead op := by
    simp only [C65_twoNames, List.forall_mem_cons, Spec.JOp.Ahead]
    exact ⟨trivial, trivial, by decide +kernel, by simp⟩
  refine ⟨p1, p2, p3, p4, ho, hs, hm, ?_⟩
  have key : ((World.run C65_twoNames).toOption.bind fun w =>
      ((JOp.sourceAndMap 1 true true).run w).toOption.map fun x => (x.1,
        [JField.sources, .names, .mappings].map fun f => ((JOp.get 0 f).run x.2).toOption.map Prod.fst)) =
      some (.pair 0, [some (.field (.list [some "h.js".toList])), some (.field (.list [some "n".toList])),
        some (.field (.text "AAAA,AAAAA".toList))]) := by decide +kernel
  have tok : ∀ {ε α : Type} (x : α), (Except.ok x : Except ε α).toOption = some x := fun _ => rfl
  cases h1 : World.run C65_twoNames with
  | error e => rw [h1] at key; cases key
  | ok w =>
    rw [h1] at key
    rw [tok, Option.bind_some] at key
    cases h2 : (JOp.sourceAndMap 1 true true).run w with
    | error e => rw [h2] at key; cases key
    | ok x =>
      obtain ⟨a, w1⟩ := x
      rw [h2, tok] at key
      simp only [Option.map_some, List.map_cons, List.map_nil, Option.some.injEq, Prod.mk.injEq,
        List.cons.injEq, and_true] at key
      obtain ⟨rfl, k1, k2, k3⟩ := key
      have back : ∀ {f : JField} {v : JFieldVal}, ((JOp.get 0 f).run w1).toOption.map Prod.fst =
          some (.field v) → Reads w1 0 f v := by
        intro f v h
        cases hx : (JOp.get 0 f).run w1 with
        | error e => rw [hx] at h; cases h
        | ok y =>
          rw [hx, tok] at h
          obtain ⟨y1, y2⟩ := y
          simp only [Option.map_some, Option.some.injEq] at h
          subst h
          exact ⟨_, hx⟩
      refine ⟨w, w1, rfl, h2, C65_exact_partial _ [] w w1 w1 1 0 true _ h1 p1 p2 p3 p4 ho hs hm h2 rfl
        (by simp) (by simp), ?_⟩
      rintro ⟨-, l, ns, s, ps, r1, r2, r3, r4, r5⟩
      cases reads_unique r1 (back k1)
      cases reads_unique r2 (back k2)
      cases reads_unique r3 (back k3)
      have hp : points (idTable 1) (idTable 1) "AAAA,AAAAA".toList =
          some [⟨1, 0, some ⟨0, 1, 0, none⟩⟩, ⟨1, 0, some ⟨0, 1, 0, some 0⟩⟩] := by
        decide +kernel
      rw [show points (idTable 1) (idTable 1) "AAAA,AAAAA".toList = some ps from r4] at hp
      cases hp
      have := r5 0 'g' ⟨some "h.js".toList, 1, 0, none⟩ (by decide +kernel)
      have := congrArg (Option.map fun z : Option JVal × Nat × Nat × Option (Option JVal) => z.2.2.2.isSome) this
      exact absurd this (by decide +kernel)

end WS
