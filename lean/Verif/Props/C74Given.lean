import Verif.Props.C74
import Verif.Props.C73Given
/-!
# C74 for programs that give emitted maps

Programs over all classes, in which the pairs that objects, nodes, list maps and `CachedSource`s hand out are given to
`SourceMapSource`s again. What C74 says holds with the maps as they read when they are given.
-/

namespace WS
open Spec

variable {U : Pool}

/-! ## Spec -/

/-- The statements with the maps they give as they read. -/
def Spec.SpeltAll (w : World) : List JOp → List JOp → Prop
  | [], r => r = []
  | o :: os, r => ∃ o' rest, r = o' :: rest ∧ SpeltOut w o o' ∧ SpeltAll w os rest

/-- The statements on sources (with the objects meant in the place of `CachedSource`s) of each statement of a program, with
the maps they give as they read at that time. -/
def Spec.GivenFrom : AWorld → CThings → List AOp → List (List JOp) → Prop
  | _, _, [], hs => hs = []
  | w, t, op :: ops, hs => ∃ a w' here rest, op.run w = .ok (a, w') ∧ hs = here :: rest ∧
      SpeltAll w.base (((Spec.AOp.onSources op).map (COp.plain t)).getD []) here ∧ GivenFrom w' (astep t op) ops rest

/-- What a statement says, when `here` are its statements on sources. -/
def Spec.TellsHere (s : AState) (op : AOp) (here : List JOp) (r : AState) : Prop :=
  match Spec.AOp.onSources op with
  | some c => r = ⟨cstep s.t c, s.js ++ here, s.nodes, s.lists⟩
  | none => TellsOne s op r

/-- What a program says. -/
def Spec.TellsGiven : AState → List AOp → List (List JOp) → AState → Prop
  | s, [], _, r => r = s
  | s, op :: ops, hs, r => ∃ here rest s', hs = here :: rest ∧ TellsHere s op here s' ∧ TellsGiven s' ops rest r

/-- The conditions of C66 and C59 on a statement. -/
def Spec.AOp.Fit (op : AOp) : Prop :=
  (∀ o, Spec.AOp.onSources op = some (.js o) → o.Proper ∧ Spec.JOp.FewLines o ∧ Spec.JOp.Simple o ∧
    ∀ k l, o ≠ .set k (.names l)) ∧
  ∀ o, op = .n o → Spec.NOp.Sized o

/-- The maps given are well-formed, and readable as list maps. -/
def Spec.WellGiven (hs : List (List JOp)) : Prop :=
  ∀ h ∈ hs, ∀ o ∈ h, Spec.JOp.Exact o ∧ Spec.JOp.Readable true o

/-! ## Emitted maps -/

theorem LOp.run_mapsEq {w w' : LWorld} {op : LOp} {a : LAnswer} (r : op.run w = .ok (a, w'))
    (hj : ∀ j, op ≠ .js j) (hr : ∀ i, op ≠ .render i) : w'.base.maps = w.base.maps := by
  have add : ∀ {w w' : LWorld} {i : Nat} {a : LArg} {s : Option Str} {o : JVal}, w.add i a s o = .ok w' →
      w'.base.maps = w.base.maps := by
    intro w w' i a s o e
    simp only [LWorld.add, Except.bind_ok_iff, Except.map_ok_iff] at e
    obtain ⟨n, h1, m, h2, m', h3, rfl⟩ := e
    exact (by simp [LWorld.names_maps])
  cases op with
  | js op => exact absurd rfl (hj op)
  | newCode s => cases r; exact (by simp [LWorld.put])
  | newSource s source original line =>
    simp only [LOp.run] at r
    split at r
    · cases r; exact (by simp [LWorld.put])
    · cases r; exact (by simp [LWorld.put, LWorld.names_maps])
  | newSingle s source original line =>
    simp only [LOp.run] at r
    split at r
    · cases r; exact (by simp [LWorld.put])
    · split at r
      · cases r
      · cases r; exact (by simp [LWorld.put, LWorld.names_maps])
  | newEmpty => cases r; exact (by simp [LWorld.put])
  | newMap a source original =>
    simp only [LOp.run] at r
    split at r
    · cases r; exact (by simp [LWorld.put])
    · simp only [Except.map_ok_iff] at r
      obtain ⟨w2, h1, h2⟩ := r
      cases h2
      simp only [Except.bind_ok_iff] at h1
      obtain ⟨-, -, h1⟩ := h1
      exact add (w := w.put (.map [])) h1
  | newArray as =>
    simp only [LOp.run, Except.map_ok_iff] at r
    obtain ⟨_, -, h2⟩ := r
    cases h2
    exact (by simp [LWorld.put])
  | fromString code sources contents names mappings =>
    simp only [LOp.run, Except.map_ok_iff] at r
    obtain ⟨m, h1, h2⟩ := r
    cases h2
    simp [World.internAll_maps, World.internAllNew_maps]
  | listMap j c md =>
    simp only [LOp.run] at r
    split at r
    · cases r
    · split at r
      · cases r
      · split at r
        · cases r
        · rename_i hc
          cases r
          exact (by simp [(World.call_strs hc).2])
        · cases r
  | add i a source original =>
    simp only [LOp.run, Except.map_ok_iff] at r
    obtain ⟨w2, h1, h2⟩ := r
    cases h2
    exact add h1
  | prepend i a source original =>
    simp only [LOp.run, Except.map_ok_iff] at r
    obtain ⟨w2, e, h2⟩ := r
    cases h2
    simp only [LWorld.prepend, Except.bind_ok_iff, Except.map_ok_iff] at e
    obtain ⟨n, h1, m, h2, m', h3, rfl⟩ := e
    exact (by simp [LWorld.names_maps])
  | clone i => cases r
  | mapCode i f =>
    simp only [LOp.run] at r
    split at r
    · cases r
    · simp only [Except.bind_ok_iff] at r
      obtain ⟨m, h1, h2⟩ := r
      split at h2
      · cases h2
      · cases h2; exact (by simp)
  | toString i =>
    simp only [LOp.run, Except.map_ok_iff] at r
    obtain ⟨_, -, h2⟩ := r
    cases h2
    exact (by simp)
  | render i => exact absurd rfl (hr i)

theorem NOp.run_mapsEq {w w' : NWorld} {op : NOp} {a : LAnswer} (r : op.run w = .ok (a, w'))
    (hj : ∀ j, op ≠ .js j) (hr : ∀ i, op ≠ .render i) : w'.base.maps = w.base.maps := by
  cases op with
  | js op => exact absurd rfl (hj op)
  | newNode line col source items =>
    simp only [NOp.run, Except.map_ok_iff] at r
    obtain ⟨w2, h1, h2⟩ := r
    cases h2
    rw [NWorld.addItems_base h1]
    cases truthy source with
    | none => exact (by simp)
    | some s => exact (by simp [World.intern])
  | node j c m =>
    simp only [NOp.run] at r
    split at r
    · cases r
    · split at r
      · cases r
      · split at r
        · cases r
        · rename_i hc
          cases r
          exact (by simp [(World.call_strs hc).2])
        · cases r
  | add i items =>
    simp only [NOp.run, Except.map_ok_iff] at r
    obtain ⟨w2, h1, h2⟩ := r
    cases h2
    rw [NWorld.addItems_base h1]
  | render i => exact absurd rfl (hr i)

theorem NOp.run_sounds {w w' : NWorld} {ds : List (Option NDesc)} (F : NFits U w ds) {op : NOp} {a : LAnswer}
    (hs : ∀ e ∈ w.base.maps, e.Sound True w.base.strs) (hj : ∀ j, op ≠ .js j) (r : op.run w = .ok (a, w')) :
    ∀ e ∈ w'.base.maps, e.Sound True w'.base.strs := by
  by_cases hr : ∃ i, op = .render i
  · obtain ⟨i, rfl⟩ := hr
    simp only [NOp.run] at r
    split at r
    · cases r
    · cases r
    · rename_i n hn
      cases r
      intro e he
      rcases List.mem_append.1 he with he | he
      · exact hs e he
      · cases List.mem_singleton.1 he
        refine ⟨⟨true, Plain.new fun h => (by cases h), .inl rfl⟩, ?_⟩
        intro wm g k1 k2
        cases k1; cases k2
        exact ⟨node_sound n (F.kept n (List.mem_of_getElem? hn)).lined, fun m hm => by cases hm⟩
  · rw [NOp.run_mapsEq r hj fun i h => hr ⟨i, h⟩]
    exact fun e he => (Emitted.Sound.lasting True).mono (NOp.run_maps r hj).1.array (hs e he)

theorem LOp.run_sounds {w w' : LWorld} {op : LOp} {a : LAnswer}
    (hs : ∀ e ∈ w.base.maps, e.Sound True w.base.strs) (hj : ∀ j, op ≠ .js j) (r : op.run w = .ok (a, w')) :
    ∀ e ∈ w'.base.maps, e.Sound True w'.base.strs := by
  by_cases hr : ∃ i, op = .render i
  · obtain ⟨i, rfl⟩ := hr
    simp only [LOp.run, Except.map_ok_iff] at r
    obtain ⟨m, -, r⟩ := r
    cases r
    intro e he
    rcases List.mem_append.1 he with he | he
    · exact hs e he
    · cases List.mem_singleton.1 he
      refine ⟨⟨false, Plain.new fun _ => ⟨_, _, rfl, rfl⟩, .inr trivial⟩, ?_⟩
      intro wm g k1 k2
      cases k1; cases k2
  · rw [LOp.run_mapsEq r hj fun i h => hr ⟨i, h⟩]
    exact fun e he => (Emitted.Sound.lasting True).mono (LOp.run_maps r hj).1.array (hs e he)

theorem World.runFrom_sounds : ∀ {tr : List JOp} {w w' : World}, (∀ e ∈ w.maps, e.Sound True w.strs) → w.Lined →
    (∀ o ∈ tr, Spec.JOp.FewLines o) → (∀ o ∈ tr, NamesOk True o) → w.runFrom tr = .ok w' →
    ∀ e ∈ w'.maps, e.Sound True w'.strs
  | [], _, _, h, _, _, _, e => by cases e; exact h
  | o :: tr, w, w', h, hl, hf, hn, e => by
    simp only [World.runFrom, Except.bind_ok_iff] at e
    obtain ⟨⟨a, w1⟩, h1, h2⟩ := e
    have l1 := JOp.run_lined hl (hf o (by simp))
    rw [h1] at l1
    exact World.runFrom_sounds (JOp.run_sound h hl (hn o (by simp)) h1) l1 (fun x hx => hf x (by simp [hx]))
      (fun x hx => hn x (by simp [hx])) h2

/-! ## One statement -/

theorem jstep_spelt {w : World} {o o' : JOp} (h : SpeltOut w o o') (st : List JThing) : jstep st o' = jstep st o := by
  cases o with
  | newSms v n m p i => obtain ⟨m', i', rfl, -, -⟩ := h; rfl
  | _ => cases h; rfl

/-- The objects, after a statement that gives a map. -/
theorem Backed.given {w w' : World} {js : List JOp} (B : Backed w js) (W : w.Within U) (W' : w'.Within U)
    (hs : ∀ e ∈ w.maps, e.Sound True w.strs) {op op' : JOp} {a : JAnswer} (hp : op.Proper) (hsim : Spec.JOp.Simple op)
    (h : SpeltOut w op op') (hx : Spec.JOp.Exact op') (hr : Spec.JOp.Readable true op') (e : op.run w = .ok (a, w')) :
    Backed w' (js ++ [op']) := by
  obtain ⟨A, I⟩ := B.inv
  obtain ⟨A', I'⟩ := JOp.run_inv I hp e
  obtain ⟨g1, g2⟩ := JOp.run_given B.labels I W W' hs B.stable hsim h (exact_strict hx) e
  refine ⟨⟨A', by rw [jthings_snoc, jstep_spelt h]; exact I'⟩, ?_, g2, ?_⟩
  · rw [jmade, List.filter_append]; exact g1
  · intro o ho
    rcases List.mem_append.1 ho with ho | ho
    · exact B.readable o ho
    · cases List.mem_singleton.1 ho; exact hr

/-- Reads. -/
theorem Backed.quiet {w w' : World} {js tr : List JOp} (B : Backed w js) (W : w.Within U) (hl : w.Lined)
    (hq : ∀ o ∈ tr, o.quiet = true) (e : w.runFrom tr = .ok w') : Backed w' js := by
  induction tr generalizing w with
  | nil => cases e; exact B
  | cons o tr ih =>
    simp only [World.runFrom, Except.bind_ok_iff] at e
    obtain ⟨⟨a, w1⟩, h1, h2⟩ := e
    have ho := hq o (by simp)
    have W1 := JOp.run_within W (op := o) (fun f v hv => by rw [quiet_supply ho] at hv; cases hv)
    rw [h1] at W1
    have l1 := JOp.run_lined hl (quiet_fewLines o ho)
    rw [h1] at l1
    have B1 := B.js W.strs (JOp.quiet_proper ho) (quiet_readable true o ho) h1
    have hf : (js ++ [o]).filter JOp.loud = js.filter JOp.loud := by simp [List.filter_append, JOp.loud, ho]
    exact ih ⟨jthings_congr hf ▸ B1.inv, jmade_congr hf ▸ B1.labels, B1.stable, B.readable⟩ W1 l1
      (fun x hx => hq x (by simp [hx])) h2

/-- The state agrees with what the program says, and emitted maps are used as they read. -/
structure GInv (U : Pool) (w : AWorld) (s : AState) : Prop where
  inv : AInv U w s
  sounds : ∀ e ∈ w.base.maps, e.Sound True w.base.strs

theorem Fit.proper {op : AOp} (h : Spec.AOp.Fit op) : ∀ c, Spec.AOp.onSources op = some c → c.Proper := by
  intro c hc
  cases c <;> first | trivial | exact (h.1 _ hc).1

theorem namesOk_of_ne {o : JOp} (h : ∀ k l, o ≠ .set k (.names l)) : NamesOk True o := by
  cases o <;> try trivial
  · exact .inr trivial
  · rename_i k a
    intro _ hf
    cases a <;> first | exact absurd rfl (h _ _) | cases hf

theorem GInv.step {w w' : AWorld} {s : AState} (G : GInv U w s) {op : AOp} {here : List JOp}
    (hU : ∀ f, ∀ v ∈ op.supply f, v ∈ U f) (hs : Spec.AOp.Fit op)
    (hh : SpeltAll w.base (((Spec.AOp.onSources op).map (COp.plain s.t)).getD []) here)
    (hw : ∀ o ∈ here, Spec.JOp.Exact o ∧ Spec.JOp.Readable true o) {a : AAnswer} (e : op.run w = .ok (a, w')) :
    ∃ s', TellsHere s op here s' ∧ GInv U w' s' := by
  have I := G.inv
  cases hc : Spec.AOp.onSources op with
  | some c =>
    obtain ⟨x, v, h1, rfl⟩ := AOp.run_onSources hc e
    rw [hc] at hh
    replace hh : SpeltAll w.base (c.plain s.t) here := hh
    refine ⟨⟨cstep s.t c, s.js ++ here, s.nodes, s.lists⟩, by simp only [TellsHere, hc], ?_⟩
    have hprop := Fit.proper hs c hc
    have hplain : ∀ o ∈ c.plain s.t, (o.Proper ∧ Spec.JOp.FewLines o ∧ Spec.JOp.Simple o ∧ NamesOk True o) ∧
        ∀ f, ∀ v ∈ o.supply f, v ∈ U f := by
      intro o ho
      cases c with
      | js p =>
        simp only [COp.plain] at ho
        split at ho
        · cases ho
        · cases List.mem_singleton.1 ho
          obtain ⟨g1, g2, g3, g4⟩ := hs.1 _ hc
          refine ⟨⟨g1, g2, g3, namesOk_of_ne g4⟩, fun f v hv => hU f v ?_⟩
          cases op with
          | c q => cases hc; exact hv
          | n q => cases q <;> cases hc; exact hv
          | l q => cases q <;> cases hc; exact hv
          | cachedNode => cases hc
          | cachedList => cases hc
      | newPrefix p y => cases List.mem_singleton.1 ho; exact ⟨⟨trivial, trivial, trivial, trivial⟩, fun f v hv => by cases hv⟩
      | newReplace y => cases List.mem_singleton.1 ho; exact ⟨⟨trivial, trivial, trivial, trivial⟩, fun f v hv => by cases hv⟩
      | newConcat ys => cases List.mem_singleton.1 ho; exact ⟨⟨trivial, trivial, trivial, trivial⟩, fun f v hv => by cases hv⟩
      | add j y => cases List.mem_singleton.1 ho; exact ⟨⟨trivial, trivial, trivial, trivial⟩, fun f v hv => by cases hv⟩
      | _ => cases ho
    -- what a trace does
    have main : ∀ tr : List JOp, w.base.runFrom tr = .ok v.base →
        (∀ o ∈ tr, (Spec.JOp.FewLines o ∧ NamesOk True o) ∧ ∀ f, ∀ v ∈ o.supply f, v ∈ U f) →
        NFits U { w.n with base := v.base } s.nodes ∧ w.base.strs.Grown v.base.strs ∧
          ∀ e ∈ v.base.maps, e.Sound True v.base.strs := by
      intro tr htr hall
      refine ⟨NFits.trace I.nodes (fun o ho => (hall o ho).2) (fun o ho => (hall o ho).1.1) htr, ?_,
        World.runFrom_sounds G.sounds I.nodes.lined (fun o ho => (hall o ho).1.1) (fun o ho => (hall o ho).1.2) htr⟩
      have : ∀ (l : List JOp) (x y : World), x.runFrom l = .ok y → x.strs.Grown y.strs := by
        intro l
        induction l with
        | nil => intro x y h; cases h; exact .rfl' _
        | cons o l ih =>
          intro x y h
          simp only [World.runFrom, Except.bind_ok_iff] at h
          obtain ⟨⟨_, z⟩, g1, g2⟩ := h
          exact (JOp.run_grown g1).trans (ih _ _ g2)
      exact this tr _ _ htr
    have quiets : ∀ o : JOp, o.quiet = true → (Spec.JOp.FewLines o ∧ NamesOk True o) ∧ ∀ f, ∀ v ∈ o.supply f, v ∈ U f :=
      fun o ho => ⟨⟨quiet_fewLines o ho, by cases o <;> first | trivial | exact .inr trivial | cases ho⟩,
        fun f v hv => by rw [quiet_supply ho] at hv; cases hv⟩
    -- the objects, and what a trace does
    have key : (NFits U { w.n with base := v.base } s.nodes ∧ w.base.strs.Grown v.base.strs ∧
        ∀ e ∈ v.base.maps, e.Sound True v.base.strs) ∧ Backed v.base (s.js ++ here) ∧
        here.foldl jstep s.t.things = (c.plain s.t).foldl jstep s.t.things := by
      have B := I.lists.backed
      rcases COp.run_steps I.sound h1 with ⟨o, y, k1, k2⟩ | ⟨k1, tr, k2, k3⟩
      · rw [k2] at hh hplain ⊢
        have k1' : w.base.runFrom [o] = .ok v.base := World.runFrom_one k1
        cases hq : o.quiet with
        | true =>
          rw [hq] at hh
          replace hh : here = [] := hh
          subst hh
          refine ⟨main [o] k1' fun x hx => by cases List.mem_singleton.1 hx; exact quiets o hq, ?_, by simp⟩
          rw [List.append_nil]
          exact B.quiet I.nodes.base I.nodes.lined (fun x hx => by cases List.mem_singleton.1 hx; exact hq) k1'
        | false =>
          rw [hq] at hh hplain
          obtain ⟨o', rest, rfl, h3, h4⟩ := hh
          replace h4 : rest = [] := h4
          subst h4
          obtain ⟨⟨g1, g2, g3, g4⟩, g5⟩ := hplain o (by simp)
          have M := main [o] k1' fun x hx => by cases List.mem_singleton.1 hx; exact ⟨⟨g2, g4⟩, g5⟩
          refine ⟨M, ?_, ?_⟩
          · exact B.given I.nodes.base M.1.base G.sounds g1 g3 h3 (hw o' (by simp)).1 (hw o' (by simp)).2 k1
          · simp [jstep_spelt h3]
      · rw [k1] at hh ⊢
        replace hh : here = [] := hh
        subst hh
        refine ⟨main tr k2 fun x hx => quiets x (k3 x hx), ?_, rfl⟩
        rw [List.append_nil]
        exact B.quiet I.nodes.base I.nodes.lined k3 k2
    obtain ⟨⟨M1, M2, M3⟩, K, T⟩ := key
    obtain ⟨da, F, M⟩ := I.lists.fits
    refine ⟨⟨COp.run_sound I.sound hprop h1, ?_, M1, ⟨K, da, F.keep M2 rfl, M⟩, I.within.mono M2.ext, ?_⟩, M3⟩
    · have h5 : ∀ t : CThings, (c.plain t).foldl jstep t.things = (cstep t c).things := fun t => plain_things t c
      show jthings (s.js ++ here) = (cstep s.t c).things
      rw [← h5, ← T, ← I.things, jthings, List.foldl_append]; rfl
    · intro o ho
      rcases List.mem_append.1 ho with ho | ho
      · exact I.exact o ho
      · exact (hw o ho).1
  | none =>
    rcases AOp.run_others hc e with ⟨o, x, v, hj, h, rfl, h2⟩ | ⟨o, x, v, hj, h, rfl, h2⟩
    · have S : ∀ e ∈ v.base.maps, e.Sound True v.base.strs := NOp.run_sounds I.nodes G.sounds hj h
      rcases h2 with rfl | ⟨k, p, j, rfl, h2, rfl⟩
      · obtain ⟨ns, h3, h4⟩ := I.node hj hU (hs.2 o rfl) h
        exact ⟨_, by simp only [TellsHere, TellsOne, hc]; exact ⟨ns, h3, rfl⟩, h4, S⟩
      · obtain ⟨ns, h3, h4⟩ := I.node hj (fun f v hv => by cases hv) trivial h
        rw [wantsColumns_eq, wantsModule_eq, ← I.sound.meant h2] at h3
        exact ⟨_, ⟨ns, h3, rfl⟩, h4, S⟩
    · have S : ∀ e ∈ v.base.maps, e.Sound True v.base.strs := LOp.run_sounds G.sounds hj h
      rcases h2 with rfl | ⟨k, p, j, rfl, h2, rfl⟩
      · obtain ⟨ns, h3, h4⟩ := I.list hj hU h
        exact ⟨_, by simp only [TellsHere, TellsOne, hc]; exact ⟨ns, h3, rfl⟩, h4, S⟩
      · obtain ⟨ns, h3, h4⟩ := I.list hj (fun f v hv => by cases hv) h
        rw [wantsColumns_eq, wantsModule_eq, ← I.sound.meant h2] at h3
        exact ⟨_, ⟨ns, h3, rfl⟩, h4, S⟩

theorem TellsHere.things {s r : AState} {op : AOp} {here : List JOp} (h : TellsHere s op here r) :
    r.t = astep s.t op ∧ r.js = s.js ++ (if (Spec.AOp.onSources op).isSome then here else []) := by
  simp only [TellsHere, astep] at h ⊢
  cases hc : Spec.AOp.onSources op with
  | some c => rw [hc] at h; cases h; exact ⟨rfl, by simp⟩
  | none =>
    rw [hc] at h
    simp only [TellsOne, hc] at h
    cases op <;> dsimp only at h
    all_goals first | (obtain ⟨_, -, rfl⟩ := h; exact ⟨rfl, by simp⟩) | cases hc

theorem GInv.runFrom : ∀ {ops : List AOp} {w w' : AWorld} {s : AState} {hs : List (List JOp)}, GInv U w s →
    (∀ op ∈ ops, ∀ f, ∀ v ∈ op.supply f, v ∈ U f) → (∀ op ∈ ops, Spec.AOp.Fit op) → GivenFrom w s.t ops hs →
    WellGiven hs → w.runFrom ops = .ok w' →
    ∃ s', TellsGiven s ops hs s' ∧ GInv U w' s' ∧ s'.t = ops.foldl astep s.t ∧ s'.js = s.js ++ hs.flatten
  | [], _, _, s, hs, I, _, _, h, _, e => by cases e; cases h; exact ⟨s, rfl, I, rfl, by simp⟩
  | op :: ops, w, w', s, hs, I, hU, hf, h, hw, e => by
    simp only [AWorld.runFrom, Except.bind_ok_iff] at e
    obtain ⟨⟨a, w1⟩, h1, h2⟩ := e
    obtain ⟨a', w1', here, rest, h1', rfl, h3, h4⟩ := h
    rw [h1] at h1'; cases h1'
    obtain ⟨s1, h5, I1⟩ := I.step (hU op (by simp)) (hf op (by simp)) h3 (hw here (by simp)) h1
    obtain ⟨k1, k2⟩ := TellsHere.things h5
    rw [← k1] at h4
    obtain ⟨s', h6, I', h7, h8⟩ := GInv.runFrom (ops := ops) I1 (fun o ho => hU o (by simp [ho]))
      (fun o ho => hf o (by simp [ho])) h4 (fun x hx => hw x (by simp [hx])) h2
    refine ⟨s', ⟨here, rest, s1, rfl, h5, h6⟩, I', by rw [h7, k1]; rfl, ?_⟩
    rw [h8, k2]
    cases hc : Spec.AOp.onSources op with
    | some c => simp
    | none =>
      rw [hc] at h3
      replace h3 : here = [] := h3
      subst h3
      simp

theorem GInv.of_run {ops : List AOp} {w : AWorld} {hs : List (List JOp)} (r : AWorld.run ops = .ok w)
    (hf : ∀ op ∈ ops, Spec.AOp.Fit op) (h : GivenFrom AWorld.empty ⟨[], []⟩ ops hs) (hw : WellGiven hs) :
    ∃ s, TellsGiven .start ops hs s ∧ AInv (AOp.pool ops) w s ∧ s.t = cthings (sourceOps ops) ∧ s.js = hs.flatten := by
  obtain ⟨s, h1, h2, h3, h4⟩ := GInv.runFrom (U := AOp.pool ops) (w := AWorld.empty) (s := .start)
    ⟨.empty, fun e he => by cases he⟩ (fun op ho f v hv => List.mem_flatMap.2 ⟨op, ho, hv⟩) hf h hw r
  exact ⟨s, h1, h2.inv, by rw [h3]; exact athings_eq ops, by rw [h4]; rfl⟩

/-! ## C74 -/

theorem AInv.columns_of {w : AWorld} {s : AState} (I : AInv U w s) {j k : Nat}
    {md : Bool} {b b2 : World} (hu : Unreplaced s.t.things true (.obj j))
    (e : (JOp.sourceAndMap j true md).run w.base = .ok (.pair k, b)) (e2 : World.Lasts k b b2) :
    ∃ m, JPlaces s.t.things (jmade s.js) (.obj j) m ∧ ShowsPlaces b2 k m := by
  obtain ⟨A, J⟩ := I.lists.backed.inv
  rw [← I.things] at *
  exact World.emit_places J I.lists.backed.labels I.nodes.base I.nodes.lined I.lists.backed.stable
    (fun op h => I.exact op (List.mem_filter.1 h).1) (fun op h => (List.mem_filter.1 h).2) hu e e2

theorem AInv.lines_of {w : AWorld} {s : AState} (I : AInv U w s) {j k : Nat}
    {md : Bool} {b b2 : World} (e : (JOp.sourceAndMap j false md).run w.base = .ok (.pair k, b))
    (e2 : World.Lasts k b b2) :
    ∃ m, JLines s.t.things (jmade s.js) md (.obj j) m ∧ ShowsLines b2 k m := by
  obtain ⟨A, J⟩ := I.lists.backed.inv
  rw [← I.things]
  exact World.emit_lines J I.lists.backed.labels I.lists.backed.stable
    (fun op h => Readable.weaken (I.lists.backed.readable op (List.mem_filter.1 h).1) md)
    (fun op h => (List.mem_filter.1 h).2) e e2

/-- The map with columns of an object without `ReplaceSource`; `hs` are the statements on sources with the maps as they
read. -/
theorem C74_given_columns_partial (ops more : List AOp) (hs : List (List JOp)) (w w1 w2 : AWorld) (j k : Nat)
    (module_ : Bool) (r : AWorld.run ops = .ok w) (hf : ∀ op ∈ ops, Spec.AOp.Fit op)
    (h : GivenFrom AWorld.empty ⟨[], []⟩ ops hs) (hw : WellGiven hs)
    (hu : Unreplaced (cthings (sourceOps ops)).things true (.obj j))
    (e : (AOp.c (.js (.sourceAndMap j true module_))).run w = .ok (.c (.js (.pair k)), w1))
    (hm : ∀ o ∈ more, ∀ c, Spec.AOp.onSources o = some c → c.Proper) (hk : ∀ o ∈ more, Spec.AOp.Spares k o)
    (e2 : w1.runFrom more = .ok w2) :
    ∃ m, JPlaces (cthings (sourceOps ops)).things (jmade hs.flatten) (.obj j) m ∧ ShowsPlaces w2.base k m := by
  obtain ⟨s, -, I, h1, h2⟩ := GInv.of_run r hf h hw
  have e3 := AWorld.then_lasts I.sound (fun c hc => by cases hc; trivial) e hm hk e2
  obtain ⟨x, h3, h4⟩ := AOp.run_js e
  cases h4
  rw [← h1] at hu ⊢
  rw [← h2]
  exact I.columns_of hu h3 e3

/-- The map without columns of an object. -/
theorem C74_given_lines_partial (ops more : List AOp) (hs : List (List JOp)) (w w1 w2 : AWorld) (j k : Nat)
    (module_ : Bool) (r : AWorld.run ops = .ok w) (hf : ∀ op ∈ ops, Spec.AOp.Fit op)
    (h : GivenFrom AWorld.empty ⟨[], []⟩ ops hs) (hw : WellGiven hs)
    (e : (AOp.c (.js (.sourceAndMap j false module_))).run w = .ok (.c (.js (.pair k)), w1))
    (hm : ∀ o ∈ more, ∀ c, Spec.AOp.onSources o = some c → c.Proper) (hk : ∀ o ∈ more, Spec.AOp.Spares k o)
    (e2 : w1.runFrom more = .ok w2) :
    ∃ m, JLines (cthings (sourceOps ops)).things (jmade hs.flatten) module_ (.obj j) m ∧ ShowsLines w2.base k m := by
  obtain ⟨s, -, I, h1, h2⟩ := GInv.of_run r hf h hw
  have e3 := AWorld.then_lasts I.sound (fun c hc => by cases hc; trivial) e hm hk e2
  obtain ⟨x, h3, h4⟩ := AOp.run_js e
  cases h4
  rw [← h1, ← h2]
  exact I.lines_of h3 e3

/-- The map of a tree of nodes. -/
theorem C74_given_nodes_partial (ops more : List AOp) (hs : List (List JOp)) (w w1 w2 : AWorld) (i k : Nat)
    (r : AWorld.run ops = .ok w) (hf : ∀ op ∈ ops, Spec.AOp.Fit op)
    (h : GivenFrom AWorld.empty ⟨[], []⟩ ops hs) (hw : WellGiven hs)
    (e : (AOp.n (.render i)).run w = .ok (.l (.pair k), w1))
    (hm : ∀ o ∈ more, ∀ c, Spec.AOp.onSources o = some c → c.Proper) (hk : ∀ o ∈ more, Spec.AOp.Spares k o)
    (e2 : w1.runFrom more = .ok w2) :
    ∃ s, TellsGiven .start ops hs s ∧ ∀ d, s.nodes[i]? = some (some d) → ShowsPlaces w2.base k d.marks := by
  obtain ⟨s, h0, I, h1, h2⟩ := GInv.of_run r hf h hw
  have e3 := AWorld.then_lasts I.sound (fun c hc => by cases hc) e hm hk e2
  refine ⟨s, h0, fun d hd => ?_⟩
  simp only [AOp.run, AWorld.inN, Except.map_ok_iff, NOp.run] at e
  obtain ⟨p, h1, h2⟩ := e
  split at h1
  · cases h1
  · cases h1
  · rename_i n hn
    cases h1; cases h2
    exact I.nodes.render_shows hn hd e3

/-- The map of a list map. -/
theorem C74_given_lists_partial (ops more : List AOp) (hs : List (List JOp)) (w w1 w2 : AWorld) (i k : Nat)
    (r : AWorld.run ops = .ok w) (hf : ∀ op ∈ ops, Spec.AOp.Fit op)
    (h : GivenFrom AWorld.empty ⟨[], []⟩ ops hs) (hw : WellGiven hs)
    (e : (AOp.l (.render i)).run w = .ok (.l (.pair k), w1))
    (hm : ∀ o ∈ more, ∀ c, Spec.AOp.onSources o = some c → c.Proper) (hk : ∀ o ∈ more, Spec.AOp.Spares k o)
    (e2 : w1.runFrom more = .ok w2) :
    ∃ s, TellsGiven .start ops hs s ∧ ∀ a, s.lists[i]? = some (some a) → ShowsNear w2.base k a.depth a.marks := by
  obtain ⟨s, h0, I, h1, h2⟩ := GInv.of_run r hf h hw
  have e3 := AWorld.then_lasts I.sound (fun c hc => by cases hc) e hm hk e2
  refine ⟨s, h0, fun a ha => ?_⟩
  obtain ⟨da, F, M⟩ := I.lists.fits
  obtain ⟨d, hd, hn⟩ := M.each i a ha
  simp only [AOp.run, AWorld.inL, Except.map_ok_iff, LOp.run] at e
  obtain ⟨p, ⟨m, h2, h3⟩, h4⟩ := e
  cases h3; cases h4
  exact showsNear hn (World.render_reads (F.good i _ d (LWorld.target_some h2) hd m rfl) e3)

/-! ## Maps of CachedSources -/

theorem GivenFrom.split : ∀ {a b : List AOp} {w : AWorld} {t : CThings} {hs : List (List JOp)}, GivenFrom w t (a ++ b) hs →
    ∃ x y, hs = x ++ y ∧ x.length = a.length ∧ GivenFrom w t a x
  | [], b, w, t, hs, _ => ⟨[], hs, rfl, rfl, rfl⟩
  | op :: a, b, w, t, hs, h => by
    obtain ⟨x, w', here, rest, h1, rfl, h3, h4⟩ := h
    obtain ⟨m, n, rfl, h5, h6⟩ := GivenFrom.split h4
    exact ⟨here :: m, n, rfl, by simp [h5], x, w', here, m, h1, rfl, h3, h6⟩

/-- The map a `CachedSource` hands out shows what the statements up to the moment it was emitted say: with columns the
places, without the lines, unless it is a map with columns. -/
theorem C74_given_cached_partial (lo ops more : List AOp) (hs : List (List JOp)) (w w1 w2 : AWorld) (op : AOp)
    (x : AAnswer) (k m : Nat) (o : Option JOpts) (hf : ∀ op ∈ lo ++ ops, Spec.AOp.Fit op)
    (h : GivenFrom AWorld.empty ⟨[], []⟩ (lo ++ ops) hs) (hw : WellGiven hs)
    (hm : ∀ o ∈ more, ∀ c, Spec.AOp.onSources o = some c → c.Proper) (hlo : ∀ op ∈ lo, Spec.AOp.asked op = none)
    (r : AWorld.run (lo ++ ops) = .ok w) (ha : Spec.AOp.asked op = some (k, o))
    (e : op.run w = .ok (x, w1)) (hx : Spec.AAnswer.theMap x = some (some m))
    (hk : ∀ o ∈ ops ++ more, Spec.AOp.Spares m o) (e2 : w1.runFrom more = .ok w2) :
    ∃ j a rest hs1 hs2, ops = a ++ rest ∧ (cthings (sourceOps (lo ++ ops))).stands[k]? = some j ∧ hs = hs1 ++ hs2 ∧
      hs1.length = (lo ++ a).length ∧
      ((asksColumns o = false ∧ ∃ mk, JLines (cthings (sourceOps (lo ++ a))).things (jmade hs1.flatten)
          (asksModule o) (.obj j) mk ∧ ShowsLines w2.base m mk) ∨
       (Unreplaced (cthings (sourceOps (lo ++ a))).things true (.obj j) →
        ∃ mk, JPlaces (cthings (sourceOps (lo ++ a))).things (jmade hs1.flatten) (.obj j) mk ∧
          ShowsPlaces w2.base m mk)) := by
  obtain ⟨j, a, rest, u, c, md, b1, rfl, h2, h3, h4, h5, h6⟩ := AWorld.origin lo ops more w w1 w2 op x k m o
    (fun q hq => by
      rcases List.mem_append.1 hq with hq | hq
      · exact Fit.proper (hf q hq)
      · exact hm q hq) hlo r ha e hx hk e2
  rw [← List.append_assoc] at h hf
  obtain ⟨hs1, hs2, rfl, g1, g2⟩ := GivenFrom.split h
  refine ⟨j, a, rest, hs1, hs2, rfl, h2, rfl, g1, ?_⟩
  obtain ⟨s, -, I, k1, k2⟩ := GInv.of_run h3 (fun q hq => hf q (List.mem_append_left _ hq)) g2
    (fun y hy => hw y (List.mem_append_left _ hy))
  rw [← k1, ← k2]
  cases c with
  | true => exact .inr fun hu => I.columns_of hu h5 h6
  | false =>
    rcases h4 with ⟨h, rfl⟩ | ⟨h, -⟩
    · exact .inl ⟨h.symm, I.lines_of h5 h6⟩
    · cases h

/-! ## Non-trivial case -/

/-- The statements with the maps as they read. -/
def gspell (w : World) : List JOp → Option (List JOp)
  | [] => some []
  | o :: os => (spellOut w o).bind fun o' => (gspell w os).map fun r => o' :: r

theorem gspell_spelt {w : World} : ∀ {os r : List JOp}, gspell w os = some r → SpeltAll w os r
  | [], r, h => by cases h; rfl
  | o :: os, r, h => by
    simp only [gspell, Option.bind_eq_some_iff, Option.map_eq_some_iff] at h
    obtain ⟨o', h1, rest, h2, rfl⟩ := h
    exact ⟨o', rest, rfl, spellOut_spelt h1, gspell_spelt h2⟩

/-- The same of a program. -/
def gspellAll : AWorld → CThings → List AOp → Option (List (List JOp))
  | _, _, [] => some []
  | w, t, op :: ops =>
    match op.run w with
    | .error _ => none
    | .ok (_, w') => (gspell w.base (((Spec.AOp.onSources op).map (COp.plain t)).getD [])).bind fun h =>
        (gspellAll w' (astep t op) ops).map fun r => h :: r

theorem gspellAll_given : ∀ {ops : List AOp} {w : AWorld} {t : CThings} {hs : List (List JOp)},
    gspellAll w t ops = some hs → GivenFrom w t ops hs
  | [], w, t, hs, h => by cases h; rfl
  | op :: ops, w, t, hs, h => by
    rw [gspellAll] at h
    split at h
    · cases h
    · rename_i a w' he
      simp only [Option.bind_eq_some_iff, Option.map_eq_some_iff] at h
      obtain ⟨here, h1, rest, h2, rfl⟩ := h
      exact ⟨a, w', here, rest, he, rfl, gspell_spelt h1, gspellAll_given h2⟩

/-- Whether the lists are the same. -/
def sameLists : List (List JOp) → List (List JOp) → Bool
  | [], [] => true
  | a :: as, b :: bs => sameOps a b && sameLists as bs
  | _, _ => false

theorem sameLists_eq : ∀ {a b : List (List JOp)}, sameLists a b = true → a = b
  | [], [], _ => rfl
  | a :: as, b :: bs, h => by
    simp only [sameLists, Bool.and_eq_true] at h
    rw [sameOps_eq h.1, sameLists_eq h.2]
  | [], _ :: _, h => by cases h
  | _ :: _, [], h => by cases h

theorem given_of_check {w : AWorld} {t : CThings} {ops : List AOp} {hs : List (List JOp)}
    (h : (gspellAll w t ops).any (sameLists hs) = true) : GivenFrom w t ops hs := by
  cases e : gspellAll w t ops with
  | none => rw [e] at h; cases h
  | some l =>
    rw [e] at h
    rw [sameLists_eq (a := hs) (b := l) h]
    exact gspellAll_given e

/-- The pairs of a node and of a list map are given to `SourceMapSource`s, which are put together; a node, a list map and
the map of a `CachedSource` are obtained from that. -/
def c74Given : List AOp :=
  [.n (.newNode 3 1 (some "n.js".toList) [.str "xy\n".toList]), .n (.render 0),
   .c (.js (.newSms "xy\n".toList "b.js".toList (.emitted 0) none none)),
   .l (.newSource "u\nv".toList (some "b.js".toList) none 5), .l .newEmpty, .l (.add 1 (.obj 0) none none),
   .l (.render 1), .c (.js (.newSms "u\nv".toList "c.js".toList (.emitted 1) none none)),
   .c (.newConcat [.ref (.obj 0), .ref (.obj 1)]), .c (.newCached (.obj 2)), .cachedNode 0 none,
   .l (.listMap 2 true true)]

def c74GivenHere : List (List JOp) :=
  [[], [], [.newSms "xy\n".toList "b.js".toList (.plain [some "n.js".toList] [] [] "AAEC".toList) none none],
   [], [], [], [], [.newSms "u\nv".toList "c.js".toList (.plain [some "b.js".toList] [none] [] "AAIA;AACA".toList) none none],
   [.newConcat [.obj 0, .obj 1]], [], [], []]

theorem c74Given_given : GivenFrom AWorld.empty ⟨[], []⟩ c74Given c74GivenHere := given_of_check (by decide +kernel)

/-- What is said of the `ConcatSource`. -/
def c74GivenMarks : PlacedMarks :=
  c63From "xy\n" "n.js" 3 1 none ++ (c63From "u\n" "b.js" 5 0 none ++ c63From "v" "b.js" 6 0 none)

/-- Maps asked for at the end, and what they read. -/
def c74GivenMore : List AOp :=
  [.n (.render 1), .l (.render 2), .c (.map 0 none), .c (.js (.get 2 .source)), .c (.js (.get 2 .sources)),
   .c (.js (.get 2 .mappings)), .c (.js (.get 3 .source)), .c (.js (.get 3 .sources)), .c (.js (.get 3 .mappings)),
   .c (.js (.get 4 .source)), .c (.js (.get 4 .sources)), .c (.js (.get 4 .mappings))]

example : (∀ op ∈ c74Given, Spec.AOp.Fit op) ∧ WellGiven c74GivenHere ∧
    (∀ o ∈ c74GivenMore, ∀ c, Spec.AOp.onSources o = some c → c.Proper) ∧ (∀ o ∈ c74GivenMore, Spec.AOp.Spares 2 o) ∧
    Unreplaced (cthings (sourceOps c74Given)).things true (.obj 2) ∧
    JPlaces (cthings (sourceOps c74Given)).things (jmade c74GivenHere.flatten) (.obj 2) c74GivenMarks ∧
    (∀ op ∈ c74Given, Spec.AOp.asked op = none) ∧ (cthings (sourceOps c74Given)).stands[0]? = some 2 := by
  have hth : (cthings (sourceOps c74Given)).things =
      [.leaf "xy\n".toList [], .leaf "u\nv".toList [], .joined [.obj 0, .obj 1]] := by decide +kernel
  rw [hth]
  refine ⟨?_, ?_, ?_, ?_, ?_, ?_, by simp [c74Given, Spec.AOp.asked, Spec.AOp.onSources, COp.asked], by decide +kernel⟩
  · intro op ho
    simp only [c74Given, List.mem_cons, List.not_mem_nil, or_false] at ho
    rcases ho with rfl | rfl | rfl | rfl | rfl | rfl | rfl | rfl | rfl | rfl | rfl | rfl <;>
      refine ⟨fun o h => ?_, fun o h => ?_⟩ <;> cases h <;>
      first | trivial | exact fun _ => (by decide) | exact ⟨trivial, trivial, rfl, fun k l h => by cases h⟩
  · intro h hh o ho
    simp only [c74GivenHere, List.mem_cons, List.not_mem_nil, or_false] at hh
    rcases hh with rfl | rfl | rfl | rfl | rfl | rfl | rfl | rfl | rfl | rfl | rfl | rfl <;>
      first | (cases ho; done) | cases List.mem_singleton.1 ho
    · exact ⟨⟨⟨_, _, _, _, rfl, [⟨1, 0, some ⟨0, 3, 1, none⟩⟩], by decide +kernel, by simp [Point.Small], by simp,
        by decide +kernel⟩, fun i hi => by cases hi⟩, _, _, _, _, rfl, fun _ => by decide +kernel⟩
    · exact ⟨⟨⟨_, _, _, _, rfl, [⟨1, 0, some ⟨0, 5, 0, none⟩⟩, ⟨2, 0, some ⟨0, 6, 0, none⟩⟩], by decide +kernel,
        by simp [Point.Small], by simp [Point.Lt], by decide +kernel⟩, fun i hi => by cases hi⟩, _, _, _, _, rfl,
        fun _ => by decide +kernel⟩
    · exact ⟨trivial, trivial⟩
  · intro o ho c hc
    simp only [c74GivenMore, List.mem_cons, List.not_mem_nil, or_false] at ho
    rcases ho with rfl | rfl | rfl | rfl | rfl | rfl | rfl | rfl | rfl | rfl | rfl | rfl <;> cases hc <;> trivial
  · intro o ho p hp
    simp only [c74GivenMore, List.mem_cons, List.not_mem_nil, or_false] at ho
    rcases ho with rfl | rfl | rfl | rfl | rfl | rfl | rfl | rfl | rfl | rfl | rfl | rfl <;> cases hp <;>
      exact ⟨id, fun a h => by cases h⟩
  · refine .joined (items := [.obj 0, .obj 1]) rfl ?_
    intro i hi
    simp only [List.mem_cons, List.not_mem_nil, or_false] at hi
    rcases hi with rfl | rfl
    · exact .leaf rfl
    · exact .leaf rfl
  · have e : c74GivenMarks = [placedBy (told [some "n.js".toList] [] [⟨1, 0, some ⟨0, 3, 1, none⟩⟩]) (1, 0) "xy\n".toList,
        placedBy (told [some "b.js".toList] [] [⟨1, 0, some ⟨0, 5, 0, none⟩⟩, ⟨2, 0, some ⟨0, 6, 0, none⟩⟩]) (1, 0)
          "u\nv".toList].flatten := by decide +kernel
    rw [e]
    refine .joined (items := [.obj 0, .obj 1]) rfl rfl ?_
    intro k i m hi hm
    match k, hi, hm with
    | 0, hi, hm => cases hi; cases hm; exact .sms rfl (by decide +kernel)
    | 1, hi, hm => cases hi; cases hm; exact .sms rfl (by decide +kernel)
    | k + 2, hi, hm => simp at hi

example : (answersFrom AWorld.empty (c74Given ++ c74GivenMore)).drop 12 =
    [.l (.pair 2), .l (.pair 3), .c (.map (some 4)),
     .c (.js (.field (.text "xy\nu\nv".toList))),
     .c (.js (.field (.list [some "n.js".toList, some "b.js".toList]))),
     .c (.js (.field (.text "AAEC;ACED;AACA".toList))),
     .c (.js (.field (.text "xy\nu\nv".toList))),
     .c (.js (.field (.list [some "n.js".toList, some "b.js".toList]))),
     .c (.js (.field (.text "AAEA;ACEA;AACA".toList))),
     .c (.js (.field (.text "xy\nu\nv".toList))),
     .c (.js (.field (.list [some "n.js".toList, some "b.js".toList]))),
     .c (.js (.field (.text "AAEC;ACED;AACA".toList)))] := by decide +kernel

end WS
