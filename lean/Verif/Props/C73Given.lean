import Verif.Props.C73
import Verif.Props.C75Given
/-!
# C73 for programs that give emitted maps

The pairs that objects and `CachedSource`s hand out are given to `SourceMapSource`s again. The statements that make objects
are taken with the maps as they read when they are given (`Spec.CMadeFrom`), as in C66.
-/

namespace WS
open Spec

/-! ## Spec -/

/-- The statements that make objects, `CachedSource`s replaced by the objects meant, with the maps they give as they read
at that time. -/
def Spec.CMadeFrom : CWorld → CThings → List COp → List JOp → Prop
  | _, _, [], made => made = []
  | w, t, op :: ops, made => ∃ a w' here rest, op.run w = .ok (a, w') ∧ made = here ++ rest ∧
      (match (op.plain t).filter Spec.JOp.makes with
        | [] => here = []
        | o :: _ => ∃ o', here = [o'] ∧ SpeltOut w.base o o') ∧
      CMadeFrom w' (cstep t op) ops rest

/-! ## Traces -/

theorem quiet_makes {op : JOp} (h : op.quiet = true) : Spec.JOp.makes op = false := by
  cases op <;> first | rfl | cases h

theorem quiet_made : ∀ {tr : List JOp} {w w' : World}, (∀ op ∈ tr, op.quiet = true) → w.runFrom tr = .ok w' →
    MadeFrom w tr []
  | [], _, _, _, _ => rfl
  | op :: tr, w, w', h, e => by
    simp only [World.runFrom, Except.bind_ok_iff] at e
    obtain ⟨⟨a, u⟩, h1, h2⟩ := e
    refine ⟨a, u, h1, ?_⟩
    rw [if_neg (by simp [quiet_makes (h op (by simp))])]
    exact quiet_made (fun o ho => h o (by simp [ho])) h2

theorem MadeFrom.append : ∀ {a b : List JOp} {w u : World} {m n : List JOp}, MadeFrom w a m → w.runFrom a = .ok u →
    MadeFrom u b n → MadeFrom w (a ++ b) (m ++ n)
  | [], b, w, u, m, n, h, e, h' => by cases e; cases h; exact h'
  | op :: a, b, w, u, m, n, h, e, h' => by
    obtain ⟨x, w1, h1, h2⟩ := h
    simp only [World.runFrom, h1, Except.bind_ok_iff] at e
    obtain ⟨_, h3, e⟩ := e
    cases h3
    refine ⟨x, w1, h1, ?_⟩
    split at h2
    · rename_i hk
      obtain ⟨op', rest, rfl, h4, h5⟩ := h2
      rw [if_pos hk]
      exact ⟨op', rest ++ n, rfl, h4, MadeFrom.append h5 e h'⟩
    · rename_i hk
      rw [if_neg hk]
      exact MadeFrom.append h2 e h'

/-- A statement is one of the other classes, or only reads. -/
theorem COp.run_steps {w w' : CWorld} {t : CThings} (S : w.Sound t) {op : COp} {a : CReply}
    (e : op.run w = .ok (a, w')) :
    (∃ o x, o.run w.base = .ok (x, w'.base) ∧ op.plain t = if o.quiet then [] else [o]) ∨
    (op.plain t = [] ∧ ∃ tr : List JOp, w.base.runFrom tr = .ok w'.base ∧ ∀ o ∈ tr, o.quiet = true) := by
  have js : ∀ {o : JOp}, w.js o = .ok (a, w') → ∃ x, o.run w.base = .ok (x, w'.base) := by
    intro o h
    simp only [CWorld.js, Except.map_ok_iff] at h
    obtain ⟨⟨x, b⟩, h1, h2⟩ := h
    cases h2
    exact ⟨x, h1⟩
  cases op with
  | js op => obtain ⟨x, h⟩ := js e; exact .inl ⟨op, x, h, rfl⟩
  | newCached r =>
    simp only [COp.run] at e
    split at e
    · cases e
    · cases e; exact .inr ⟨rfl, [], rfl, by simp⟩
  | newPrefix p a =>
    simp only [COp.run, Except.bind_ok_iff] at e
    obtain ⟨c, h1, h2⟩ := e
    obtain ⟨x, h⟩ := js h2
    exact .inl ⟨_, x, h, by rw [← S.arg h1]; rfl⟩
  | newReplace a =>
    simp only [COp.run, Except.bind_ok_iff] at e
    obtain ⟨c, h1, h2⟩ := e
    obtain ⟨x, h⟩ := js h2
    exact .inl ⟨_, x, h, by rw [← S.arg h1]; rfl⟩
  | newConcat as =>
    simp only [COp.run, Except.bind_ok_iff] at e
    obtain ⟨c, h1, h2⟩ := e
    obtain ⟨x, h⟩ := js h2
    exact .inl ⟨_, x, h, by rw [← S.args h1]; rfl⟩
  | add j a =>
    simp only [COp.run, Except.bind_ok_iff] at e
    obtain ⟨c, h1, h2⟩ := e
    obtain ⟨x, h⟩ := js h2
    exact .inl ⟨_, x, h, by rw [← S.arg h1]; rfl⟩
  | hash k =>
    simp only [COp.run] at e
    split at e
    · cases e
    · obtain ⟨x, h⟩ := js e
      exact .inl ⟨_, x, h, rfl⟩
  | _ =>
    refine .inr ⟨rfl, ?_⟩
    obtain ⟨tr, h1, h2⟩ := COp.run_trace S e
    exact ⟨tr, h1, quiet_of_filter_loud h2⟩

theorem CWorld.runFrom_made : ∀ {ops : List COp} {w w' : CWorld} {t : CThings} {made : List JOp}, w.Sound t →
    (∀ op ∈ ops, op.Proper) → w.runFrom ops = .ok w' → CMadeFrom w t ops made →
    ∃ tr : List JOp, w.base.runFrom tr = .ok w'.base ∧ tr.filter JOp.loud = plainFrom t ops ∧ MadeFrom w.base tr made
  | [], w, w', t, made, _, _, e, h => by cases e; cases h; exact ⟨[], rfl, rfl, rfl⟩
  | op :: ops, w, w', t, made, S, hp, e, h => by
    simp only [CWorld.runFrom, Except.bind_ok_iff] at e
    obtain ⟨⟨a, u⟩, h1, h2⟩ := e
    obtain ⟨a', u', here, rest, h1', rfl, h3, h4⟩ := h
    rw [h1] at h1'; cases h1'
    obtain ⟨tr', h5, h6, h7⟩ := CWorld.runFrom_made (COp.run_sound S (hp op (by simp)) h1)
      (fun o ho => hp o (by simp [ho])) h2 h4
    rcases COp.run_steps S h1 with ⟨o, x, k1, k2⟩ | ⟨k1, tr, k2, k3⟩
    · refine ⟨[o] ++ tr', World.runFrom_append (World.runFrom_one k1) h5, ?_, ?_⟩
      · rw [List.filter_append, h6, plainFrom, k2]
        cases hq : o.quiet <;> simp [JOp.loud, hq]
      · refine MadeFrom.append ?_ (World.runFrom_one k1) h7
        refine ⟨x, u.base, k1, ?_⟩
        rw [k2] at h3
        cases hk : Spec.JOp.makes o with
        | true =>
          have hq : o.quiet = false := by
            cases hq : o.quiet with
            | false => rfl
            | true => rw [quiet_makes hq] at hk; cases hk
          simp only [hq, Bool.false_eq_true, if_false, List.filter_cons, hk, if_true] at h3
          obtain ⟨o', rfl, h8⟩ := h3
          rw [if_pos rfl]
          exact ⟨o', [], rfl, h8, rfl⟩
        | false =>
          rw [if_neg (by simp)]
          have hf : (if o.quiet = true then [] else [o]).filter Spec.JOp.makes = [] := by
            split <;> simp [hk]
          rw [hf] at h3
          exact h3
    · refine ⟨tr ++ tr', World.runFrom_append k2 h5, ?_, ?_⟩
      · rw [List.filter_append, filter_loud_of_quiet k3, h6, plainFrom, k1]
      · rw [k1] at h3
        replace h3 : here = [] := h3
        subst h3
        exact MadeFrom.append (quiet_made k3 k2) k2 h7

theorem CMadeFrom.split : ∀ {a b : List COp} {w : CWorld} {t : CThings} {made : List JOp}, CMadeFrom w t (a ++ b) made →
    ∃ m n, made = m ++ n ∧ CMadeFrom w t a m
  | [], b, w, t, made, _ => ⟨[], made, rfl, rfl⟩
  | op :: a, b, w, t, made, h => by
    obtain ⟨x, w', here, rest, h1, rfl, h3, h4⟩ := h
    obtain ⟨m, n, rfl, h5⟩ := CMadeFrom.split h4
    exact ⟨here ++ m, n, by simp, x, w', here, m, h1, rfl, h3, h5⟩

/-- What C66 asks, of the statements without `CachedSource`s. -/
structure Spec.Givable (ops : List COp) (made : List JOp) : Prop where
  proper : ∀ op ∈ ops, op.Proper
  few : ∀ op ∈ cplain ops, Spec.JOp.FewLines op
  names : ∀ k l, .js (.set k (.names l)) ∉ ops
  simple : ∀ op ∈ cplain ops, Spec.JOp.Simple op
  made : CMadeFrom CWorld.empty ⟨[], []⟩ ops made

theorem quiet_simple (op : JOp) (h : op.quiet = true) : Spec.JOp.Simple op := by
  cases op <;> first | trivial | cases h

/-- A program without `CachedSource`s that makes the same objects. -/
theorem Spec.Givable.trace {ops : List COp} {made : List JOp} (G : Givable ops made) {w : CWorld}
    (r : CWorld.run ops = .ok w) :
    ∃ tr : List JOp, World.run tr = .ok w.base ∧ jthings tr = (cthings ops).things ∧ (∀ op ∈ tr, op.Proper) ∧
      (∀ op ∈ tr, Spec.JOp.FewLines op) ∧ NamesFit tr ∧ (∀ op ∈ tr, Spec.JOp.Simple op) ∧ MadeFrom World.empty tr made ∧
      (∀ P : JOp → Prop, (∀ op, op.quiet = true → P op) → (∀ op ∈ cplain ops, P op) → ∀ op ∈ tr, P op) := by
  obtain ⟨tr, h1, h2, h3⟩ := CWorld.runFrom_made CWorld.empty_sound G.proper r G.made
  refine ⟨tr, h1, by rw [← jthings_loud, h2]; exact cplain_things ops, ?_, forall_loud quiet_fewLines h2 G.few,
    .inl fun k l hk => ?_, forall_loud quiet_simple h2 G.simple, h3, fun P hq hP => forall_loud hq h2 hP⟩
  · refine forall_loud (fun op h => JOp.quiet_proper h) h2 fun o ho => ?_
    rcases plainFrom_js ho with h | h
    · exact G.proper _ h
    · exact h.2.2
  · have : JOp.set k (.names l) ∈ plainFrom ⟨[], []⟩ ops := by
      rw [← h2]; exact List.mem_filter.2 ⟨hk, rfl⟩
    rcases plainFrom_js this with h | h
    · exact G.names k l h
    · exact h.2.1 _ _ rfl

theorem Spec.Givable.split {a b : List COp} {made : List JOp} (G : Givable (a ++ b) made) :
    ∃ m n, made = m ++ n ∧ Givable a m := by
  obtain ⟨m, n, rfl, h⟩ := CMadeFrom.split G.made
  have hc : cplain (a ++ b) = cplain a ++ plainFrom (cthings a) b := by rw [cplain, plainFrom_append]; rfl
  exact ⟨m, n, rfl, fun o ho => G.proper o (by simp [ho]), fun o ho => G.few o (by rw [hc]; simp [ho]),
    fun k l hk => G.names k l (by simp [hk]), fun o ho => G.simple o (by rw [hc]; simp [ho]), h⟩

/-! ## Objects that have CachedSources in them -/

/-- C73 for objects, with columns. -/
theorem C73_objects_given_partial (ops more : List COp) (made : List JOp) (w w1 w2 : CWorld) (j k : Nat) (module_ : Bool)
    (r : CWorld.run ops = .ok w) (G : Givable ops made) (hp : ∀ op ∈ more, op.Proper)
    (hr : ∀ op ∈ made, Spec.JOp.Exact op) (hu : Unreplaced (cthings ops).things true (.obj j))
    (e : (COp.js (.sourceAndMap j true module_)).run w = .ok (.js (.pair k), w1)) (e2 : w1.runFrom more = .ok w2)
    (hg : ∀ o, .js o ∈ more → ¬ o.gives k) (hset : ∀ a, .js (.set k a) ∉ more) :
    ∃ m, JPlaces (cthings ops).things made (.obj j) m ∧ ShowsPlaces w2.base k m := by
  obtain ⟨tr, h1, h2, h3, h4, h5, h6, h7, -⟩ := G.trace r
  have S1 := COp.run_sound (CWorld.run_sound G.proper r) (op := .js (.sourceAndMap j true module_)) trivial e
  obtain ⟨tr', k1, k2⟩ := CWorld.runFrom_trace S1 hp e2
  simp only [COp.run, CWorld.js, Except.map_ok_iff] at e
  obtain ⟨⟨x, b⟩, e3, e4⟩ := e
  cases e4
  obtain ⟨g1, g2⟩ := keeps_pair k2 hg hset
  have := C66_partial tr tr' made w.base b w2.base j k module_ h1 h3 h4 h5 h6 h7 hr (by rw [h2]; exact hu) e3 k1 g1 g2
  rwa [h2] at this

/-! ## CachedSources -/

/-- Where the map of a `CachedSource` comes from: a program without `CachedSource`s, whose maps given read as those of the
beginning of the program up to the moment the map was emitted. -/
theorem origin_given (lo ops more : List COp) (made : List JOp) (w w1 w2 : CWorld) (op : COp) (x : CReply) (k m : Nat)
    (o : Option JOpts) (G : Givable (lo ++ ops) made) (hp : ∀ op ∈ more, op.Proper) (hlo : ∀ op ∈ lo, op.asked = none)
    (r : CWorld.run (lo ++ ops) = .ok w) (ha : op.asked = some (k, o))
    (e : op.run w = .ok (x, w1)) (hm : x.theMap = some (some m)) (e2 : w1.runFrom more = .ok w2)
    (hg : ∀ o, .js o ∈ ops ++ more → ¬ o.gives m) (hset : ∀ a, .js (.set m a) ∉ ops ++ more) :
    ∃ (j : Nat) (a rest : List COp) (made1 made2 : List JOp) (tr tr' : List JOp) (u u1 : World) (c md : Bool),
      ops = a ++ rest ∧ (cthings (lo ++ ops)).stands[k]? = some j ∧ made = made1 ++ made2 ∧ Givable (lo ++ a) made1 ∧
      World.run tr = .ok u ∧ jthings tr = (cthings (lo ++ a)).things ∧ (∀ op ∈ tr, op.Proper) ∧
      (∀ op ∈ tr, Spec.JOp.FewLines op) ∧ NamesFit tr ∧ (∀ op ∈ tr, Spec.JOp.Simple op) ∧
      MadeFrom World.empty tr made1 ∧
      (∀ P : JOp → Prop, (∀ op, op.quiet = true → P op) → (∀ op ∈ cplain (lo ++ ops), P op) → ∀ op ∈ tr, P op) ∧
      ((c = asksColumns o ∧ md = asksModule o) ∨ (c = true ∧ md = true)) ∧
      (JOp.sourceAndMap j c md).run u = .ok (.pair m, u1) ∧ u1.runFrom tr' = .ok w2.base ∧
      (∀ op ∈ tr', ¬ op.gives m) ∧ ∀ a, .set m a ∉ tr' := by
  obtain ⟨j, a, rest, -, tr', u, u1, c, md, rfl, h2, -, -, ⟨v, hv, rfl⟩, h5, h6, h7, h8⟩ :=
    C73_origin lo ops more w w1 w2 op x k m o (fun o ho => by
      rcases List.mem_append.1 ho with ho | ho
      · exact G.proper o ho
      · exact hp o ho) hlo r ha e hm e2
  obtain ⟨g1, g2⟩ := keeps_pair h8 (fun o h => hg o (by
      rcases List.mem_append.1 h with h | h <;> simp [h])) (fun a h => hset a (by
      rcases List.mem_append.1 h with h | h <;> simp [h]))
  rw [← List.append_assoc] at G
  have hc : cplain (lo ++ a ++ rest) = cplain (lo ++ a) ++ plainFrom (cthings (lo ++ a)) rest := by
    rw [cplain, plainFrom_append]; rfl
  obtain ⟨m1, m2, rfl, G1⟩ := G.split
  obtain ⟨tr, t1, t2, t3, t4, t5, t6, t7, t8⟩ := G1.trace hv
  refine ⟨j, a, rest, m1, m2, tr, tr', v.base, u1, c, md, rfl, h2, rfl, G1, t1, t2, t3, t4, t5, t6, t7,
    fun P hq hP => t8 P hq fun o ho => hP o ?_, h5, h6, h7, g1, g2⟩
  rw [← List.append_assoc, hc]
  exact List.mem_append_left _ ho

/-- C73 for `CachedSource`s, with columns: the map handed out shows the places that the statements up to the moment it was
emitted say, with the maps given as they read. -/
theorem C73_columns_given_partial (lo ops more : List COp) (made : List JOp) (w w1 w2 : CWorld) (op : COp) (x : CReply)
    (k m : Nat) (o : Option JOpts) (G : Givable (lo ++ ops) made) (hp : ∀ op ∈ more, op.Proper)
    (hlo : ∀ op ∈ lo, op.asked = none) (hr : ∀ op ∈ made, Spec.JOp.Exact op)
    (r : CWorld.run (lo ++ ops) = .ok w) (ha : op.asked = some (k, o)) (hc : asksColumns o = true)
    (e : op.run w = .ok (x, w1)) (hm : x.theMap = some (some m)) (e2 : w1.runFrom more = .ok w2)
    (hg : ∀ o, .js o ∈ ops ++ more → ¬ o.gives m) (hset : ∀ a, .js (.set m a) ∉ ops ++ more) :
    ∃ j a rest made1 made2, ops = a ++ rest ∧ (cthings (lo ++ ops)).stands[k]? = some j ∧ made = made1 ++ made2 ∧
      CMadeFrom CWorld.empty ⟨[], []⟩ (lo ++ a) made1 ∧
      (Unreplaced (cthings (lo ++ a)).things true (.obj j) →
        ∃ mk, JPlaces (cthings (lo ++ a)).things made1 (.obj j) mk ∧ ShowsPlaces w2.base m mk) := by
  obtain ⟨j, a, rest, m1, m2, tr, tr', u, u1, c, md, h1, h2, rfl, h3, t1, t2, t3, t4, t5, t6, t7, -, h5, h6, h7, g1, g2⟩ :=
    origin_given lo ops more made w w1 w2 op x k m o G hp hlo r ha e hm e2 hg hset
  refine ⟨j, a, rest, m1, m2, h1, h2, rfl, h3.made, fun hu => ?_⟩
  obtain rfl : c = true := by rcases h5 with ⟨h, -⟩ | ⟨h, -⟩ <;> simp [h, hc]
  have := C66_partial tr tr' m1 u u1 w2.base j m md t1 t3 t4 t5 t6 t7 (fun op ho => hr op (by simp [ho]))
    (by rw [t2]; exact hu) h6 h7 g1 g2
  rwa [t2] at this

/-- The same where `ReplaceSource`s are in the object, for the code that stays. -/
theorem C73_carries_given_partial (lo ops more : List COp) (made : List JOp) (w w1 w2 : CWorld) (op : COp) (x : CReply)
    (k m : Nat) (o : Option JOpts) (G : Givable (lo ++ ops) made) (hp : ∀ op ∈ more, op.Proper)
    (hlo : ∀ op ∈ lo, op.asked = none) (hr : ∀ op ∈ made, Spec.JOp.Exact op)
    (hah : ∀ op ∈ cplain (lo ++ ops), Spec.JOp.Ahead op)
    (r : CWorld.run (lo ++ ops) = .ok w) (ha : op.asked = some (k, o)) (hc : asksColumns o = true)
    (e : op.run w = .ok (x, w1)) (hm : x.theMap = some (some m)) (e2 : w1.runFrom more = .ok w2)
    (hg : ∀ o, .js o ∈ ops ++ more → ¬ o.gives m) (hset : ∀ a, .js (.set m a) ∉ ops ++ more) :
    ∃ j a rest made1 made2, ops = a ++ rest ∧ (cthings (lo ++ ops)).stands[k]? = some j ∧ made = made1 ++ made2 ∧
      CMadeFrom CWorld.empty ⟨[], []⟩ (lo ++ a) made1 ∧
      (Orderly (cthings (lo ++ a)).things made1 (mentions made1) (.obj j) →
        ∃ mk, JCarries (cthings (lo ++ a)).things made1 (.obj j) mk ∧ KeepsPlaces w2.base m mk) := by
  obtain ⟨j, a, rest, m1, m2, tr, tr', u, u1, c, md, h1, h2, rfl, h3, t1, t2, t3, t4, t5, t6, t7, t8, h5, h6, h7, g1, g2⟩ :=
    origin_given lo ops more made w w1 w2 op x k m o G hp hlo r ha e hm e2 hg hset
  refine ⟨j, a, rest, m1, m2, h1, h2, rfl, h3.made, fun hu => ?_⟩
  obtain rfl : c = true := by rcases h5 with ⟨h, -⟩ | ⟨h, -⟩ <;> simp [h, hc]
  have := C66_edited_partial tr tr' m1 u u1 w2.base j m md t1 t3 t4 t5 t6 t7 (fun op ho => hr op (by simp [ho]))
    (t8 _ quiet_ahead hah) (by rw [t2]; exact hu) h6 h7 g1 g2
  rwa [t2] at this

/-- C75 for the same: the pair is the smallest one that says it. -/
theorem C75_cached_given_partial (lo ops more : List COp) (made : List JOp) (w w1 w2 : CWorld) (op : COp) (x : CReply)
    (k m : Nat) (o : Option JOpts) (G : Givable (lo ++ ops) made) (hp : ∀ op ∈ more, op.Proper)
    (hlo : ∀ op ∈ lo, op.asked = none) (hr : ∀ op ∈ made, Spec.JOp.Exact op)
    (r : CWorld.run (lo ++ ops) = .ok w) (ha : op.asked = some (k, o)) (hc : asksColumns o = true)
    (e : op.run w = .ok (x, w1)) (hm : x.theMap = some (some m)) (e2 : w1.runFrom more = .ok w2)
    (hg : ∀ o, .js o ∈ ops ++ more → ¬ o.gives m) (hset : ∀ a, .js (.set m a) ∉ ops ++ more) :
    ∃ j a rest made1 made2, ops = a ++ rest ∧ (cthings (lo ++ ops)).stands[k]? = some j ∧ made = made1 ++ made2 ∧
      CMadeFrom CWorld.empty ⟨[], []⟩ (lo ++ a) made1 ∧
      (Unreplaced (cthings (lo ++ a)).things false (.obj j) →
        ∃ mk, (∀ m', JPlaces (cthings (lo ++ a)).things made1 (.obj j) m' ↔ m' = mk) ∧ ShowsExactly w2.base m mk) := by
  obtain ⟨j, a, rest, m1, m2, tr, tr', u, u1, c, md, h1, h2, rfl, h3, t1, t2, t3, t4, t5, t6, t7, -, h5, h6, h7, g1, g2⟩ :=
    origin_given lo ops more made w w1 w2 op x k m o G hp hlo r ha e hm e2 hg hset
  refine ⟨j, a, rest, m1, m2, h1, h2, rfl, h3.made, fun hu => ?_⟩
  obtain rfl : c = true := by rcases h5 with ⟨h, -⟩ | ⟨h, -⟩ <;> simp [h, hc]
  have := C75_given_partial tr tr' m1 u u1 w2.base j m md t1 t3 t4 t5 t6 t7 (fun op ho => hr op (by simp [ho]))
    (by rw [t2]; exact hu) h6 h7 g1 g2
  rwa [t2] at this

/-- C73 for lines: the map handed out shows the lines that the statements up to the moment it was emitted say, unless it
is one with columns, which shows the places. -/
theorem C73_lines_given_partial (lo ops more : List COp) (made : List JOp) (w w1 w2 : CWorld) (op : COp) (x : CReply)
    (k m : Nat) (o : Option JOpts) (G : Givable (lo ++ ops) made) (hp : ∀ op ∈ more, op.Proper)
    (hlo : ∀ op ∈ lo, op.asked = none) (hr : ∀ op ∈ made, Spec.JOp.Exact op)
    (hl : ∀ op ∈ made, Spec.JOp.Readable (asksModule o) op)
    (r : CWorld.run (lo ++ ops) = .ok w) (ha : op.asked = some (k, o)) (hc : asksColumns o = false)
    (e : op.run w = .ok (x, w1)) (hm : x.theMap = some (some m)) (e2 : w1.runFrom more = .ok w2)
    (hg : ∀ o, .js o ∈ ops ++ more → ¬ o.gives m) (hset : ∀ a, .js (.set m a) ∉ ops ++ more) :
    ∃ j a rest made1 made2, ops = a ++ rest ∧ (cthings (lo ++ ops)).stands[k]? = some j ∧ made = made1 ++ made2 ∧
      CMadeFrom CWorld.empty ⟨[], []⟩ (lo ++ a) made1 ∧
      ((∃ mk, JLines (cthings (lo ++ a)).things made1 (asksModule o) (.obj j) mk ∧ ShowsLines w2.base m mk) ∨
       (Unreplaced (cthings (lo ++ a)).things true (.obj j) →
        ∃ mk, JPlaces (cthings (lo ++ a)).things made1 (.obj j) mk ∧ ShowsPlaces w2.base m mk)) := by
  obtain ⟨j, a, rest, m1, m2, tr, tr', u, u1, c, md, h1, h2, rfl, h3, t1, t2, t3, t4, t5, t6, t7, -, h5, h6, h7, g1, g2⟩ :=
    origin_given lo ops more made w w1 w2 op x k m o G hp hlo r ha e hm e2 hg hset
  refine ⟨j, a, rest, m1, m2, h1, h2, rfl, h3.made, ?_⟩
  have hr1 : ∀ op ∈ m1, Spec.JOp.Exact op := fun op ho => hr op (by simp [ho])
  rcases h5 with ⟨rfl, rfl⟩ | ⟨rfl, rfl⟩
  · rw [hc] at h6
    left
    have := C66_lines_partial tr tr' m1 u u1 w2.base j m _ t1 t3 t4 t5 t6 t7 (fun op ho => exact_strict (hr1 op ho))
      (fun op ho => hl op (by simp [ho])) h6 h7 g1 g2
    rwa [t2] at this
  · refine .inr fun hu => ?_
    have := C66_partial tr tr' m1 u u1 w2.base j m true t1 t3 t4 t5 t6 t7 hr1 (by rw [t2]; exact hu) h6 h7 g1 g2
    rwa [t2] at this

/-! ## Non-trivial case -/

/-- The statements that make objects, with the maps as they read. -/
def cspellAll : CWorld → CThings → List COp → Option (List JOp)
  | _, _, [] => some []
  | w, t, op :: ops =>
    match op.run w with
    | .error _ => none
    | .ok (_, w') =>
      match (op.plain t).filter Spec.JOp.makes with
      | [] => cspellAll w' (cstep t op) ops
      | o :: _ => (spellOut w.base o).bind fun o' => (cspellAll w' (cstep t op) ops).map fun r => o' :: r

theorem cspellAll_made : ∀ {ops : List COp} {w : CWorld} {t : CThings} {made : List JOp},
    cspellAll w t ops = some made → CMadeFrom w t ops made
  | [], w, t, made, h => by cases h; rfl
  | op :: ops, w, t, made, h => by
    rw [cspellAll] at h
    split at h
    · cases h
    · rename_i a w' he
      split at h
      · rename_i hf
        refine ⟨a, w', [], made, he, rfl, ?_, cspellAll_made h⟩
        rw [hf]
      · rename_i o l hf
        simp only [Option.bind_eq_some_iff, Option.map_eq_some_iff] at h
        obtain ⟨o', h1, r, h2, rfl⟩ := h
        refine ⟨a, w', [o'], r, he, rfl, ?_, cspellAll_made h2⟩
        rw [hf]
        exact ⟨o', rfl, spellOut_spelt h1⟩

theorem cmade_of_check {w : CWorld} {t : CThings} {ops : List COp} {made : List JOp}
    (h : (cspellAll w t ops).any (sameOps made) = true) : CMadeFrom w t ops made := by
  cases e : cspellAll w t ops with
  | none => rw [e] at h; cases h
  | some l =>
    rw [e] at h
    rw [sameOps_eq (a := made) (b := l) h]
    exact cspellAll_made e

/-- A program that gives the map of a `CachedSource` to a `SourceMapSource`, and caches what it makes of it. -/
def c73Given : List COp :=
  [.both 0 none, .js (.newSms "x\na;b\n".toList "b.js".toList (.emitted 0) none none),
   .newConcat [.ref (.cached 0), .ref (.obj 2)], .newCached (.obj 3)]

def c73GivenStart : List COp :=
  [.js (.newOriginal "a;b\n".toList "a.js".toList), .newConcat [.str "x\n".toList, .ref (.obj 0)], .newCached (.obj 1)]

def c73GivenMade : List JOp :=
  [.newOriginal "a;b\n".toList "a.js".toList, .newConcat [.str "x\n".toList, .obj 0],
   .newSms "x\na;b\n".toList "b.js".toList (.plain [some "a.js".toList] [some "a;b\n".toList] [] ";AAAA,EAAE".toList)
     none none,
   .newConcat [.obj 1, .obj 2]]

theorem c73Given_givable : Givable (c73GivenStart ++ c73Given) c73GivenMade := by
  have hpl : cplain (c73GivenStart ++ c73Given) =
      [.newOriginal "a;b\n".toList "a.js".toList, .newConcat [.str "x\n".toList, .obj 0],
       .newSms "x\na;b\n".toList "b.js".toList (.emitted 0) none none, .newConcat [.obj 1, .obj 2]] := by decide +kernel
  refine ⟨by simp [c73GivenStart, c73Given, COp.Proper, JOp.Proper], ?_, by simp [c73GivenStart, c73Given], ?_,
    cmade_of_check (by decide +kernel)⟩
  · rw [hpl]
    simp only [List.forall_mem_cons, Spec.JOp.FewLines]
    unfold Spec.FewLines
    exact ⟨by decide, trivial, trivial, trivial, by simp⟩
  · rw [hpl]
    simp [Spec.JOp.Simple]

example : (∀ op ∈ c73GivenMade, Spec.JOp.Exact op) ∧ (∀ op ∈ c73GivenMade, Spec.JOp.Readable true op) ∧
    (∀ op ∈ cplain (c73GivenStart ++ c73Given), Spec.JOp.Ahead op) ∧ (∀ op ∈ c73GivenStart, op.asked = none) ∧
    (cthings (c73GivenStart ++ c73Given)).stands[1]? = some 3 ∧
    Unreplaced (cthings (c73GivenStart ++ c73Given)).things true (.obj 3) ∧
    ((COp.map 1 none).asked = some (1, some ⟨none, none⟩) ∧ asksColumns (some ⟨none, none⟩) = true) ∧
    (∀ o, .js o ∈ c73Given ++ c73Reads 1 → ¬ o.gives 1) ∧ ∀ a, .js (.set 1 a) ∉ c73Given ++ c73Reads 1 := by
  have hpl : cplain (c73GivenStart ++ c73Given) =
      [.newOriginal "a;b\n".toList "a.js".toList, .newConcat [.str "x\n".toList, .obj 0],
       .newSms "x\na;b\n".toList "b.js".toList (.emitted 0) none none, .newConcat [.obj 1, .obj 2]] := by decide +kernel
  have hth : (cthings (c73GivenStart ++ c73Given)).things = [.leaf "a;b\n".toList [], .joined [.str "x\n".toList, .obj 0],
      .leaf "x\na;b\n".toList [], .joined [.str "x\n".toList, .obj 0, .obj 2]] := by decide +kernel
  rw [hpl, hth]
  refine ⟨?_, ?_, by simp [Spec.JOp.Ahead], by simp [c73GivenStart, COp.asked], by decide +kernel, ?_, ⟨rfl, rfl⟩, ?_,
    by simp [c73Given, c73Reads]⟩
  · simp only [c73GivenMade, List.forall_mem_cons, Spec.JOp.Exact]
    exact ⟨trivial, trivial,
      ⟨⟨_, _, _, _, rfl, [⟨2, 0, some ⟨0, 1, 0, none⟩⟩, ⟨2, 2, some ⟨0, 1, 2, none⟩⟩], by decide +kernel,
        by simp [Point.Small], by simp [Point.Lt], by decide +kernel⟩, fun i hi => by cases hi⟩,
      trivial, by simp⟩
  · simp only [c73GivenMade, List.forall_mem_cons, Spec.JOp.Readable]
    exact ⟨trivial, trivial, ⟨_, _, _, _, rfl, fun _ => by decide +kernel⟩, trivial, by simp⟩
  · refine .joined (items := [.str "x\n".toList, .obj 0, .obj 2]) rfl ?_
    intro i hi
    simp only [List.mem_cons, List.not_mem_nil, or_false] at hi
    rcases hi with rfl | rfl | rfl
    · exact .str _ (.inl rfl)
    · exact .leaf rfl
    · exact .leaf rfl
  · intro o ho
    simp only [c73Given, c73Reads, List.cons_append, List.nil_append, List.mem_cons, List.not_mem_nil, or_false] at ho
    rcases ho with h | h | h | h | h | h | h | h <;> cases h <;> simp [JOp.gives]

example : shownReplies (c73GivenStart ++ c73Given ++ [.map 1 none] ++ c73Reads 1) =
    [.inr (.js .done), .inr (.js .done), .inr (.js .done), .inr (.both "x\na;b\n".toList (some 0)), .inr (.js .done),
     .inr (.js .done), .inr (.js .done), .inr (.map (some 1)),
     .inr (.js (.field (.text "x\na;b\nx\na;b\n".toList))), .inr (.js (.field (.list [some "a.js".toList]))),
     .inr (.js (.field (.list []))), .inr (.js (.field (.text ";AAAA,EAAE;;AAAF,EAAE".toList)))] := by decide +kernel

end WS
