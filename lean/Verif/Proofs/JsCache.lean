import Verif.Spec.JsCache
import Verif.Proofs.JsRun
/-! # Programs with CachedSources are programs without them, as far as the other objects go -/

namespace WS
open Spec

/-- Statements that make and change no object. -/
def JOp.quiet : JOp → Bool
  | .source _ | .size _ | .sourceAndMap .. | .get .. | .hash _ => true
  | _ => false

theorem JOp.quiet_step {op : JOp} (h : op.quiet = true) (st : List JThing) : jstep st op = st := by
  cases op <;> first | rfl | cases h

theorem JOp.quiet_proper {op : JOp} (h : op.quiet = true) : op.Proper := by
  cases op <;> first | trivial | cases h

theorem World.runFrom_append {a b : List JOp} {w u v : World} (h : w.runFrom a = .ok u)
    (h' : u.runFrom b = .ok v) : w.runFrom (a ++ b) = .ok v := by
  induction a generalizing w with
  | nil => cases h; exact h'
  | cons op a ih =>
    simp only [World.runFrom, List.cons_append, Except.bind_ok_iff] at h ⊢
    obtain ⟨p, h1, h2⟩ := h
    exact ⟨p, h1, ih h2⟩

/-- What the caches stand for stays. -/
structure CWorld.Keeps (w w' : CWorld) : Prop where
  len : w'.caches.length = w.caches.length
  fixed : ∀ (k : Nat) (c : CacheObj), w.caches[k]? = some c →
    ∃ c', w'.caches[k]? = some c' ∧ c'.under = c.under ∧ c'.wrapped = c.wrapped

theorem CWorld.Keeps.refl (w : CWorld) : w.Keeps w := ⟨rfl, fun _ c h => ⟨c, h, rfl, rfl⟩⟩

theorem CWorld.Keeps.of_eq {w w' : CWorld} (h : w'.caches = w.caches) : w.Keeps w' :=
  ⟨by rw [h], fun k c hc => ⟨c, by rw [h]; exact hc, rfl, rfl⟩⟩

theorem CWorld.Keeps.trans {a b c : CWorld} (h : a.Keeps b) (h' : b.Keeps c) : a.Keeps c :=
  ⟨h'.len.trans h.len, fun k x hx => by
    obtain ⟨y, hy, h1, h2⟩ := h.fixed k x hx
    obtain ⟨z, hz, h3, h4⟩ := h'.fixed k y hy
    exact ⟨z, hz, h3.trans h1, h4.trans h2⟩⟩

theorem CWorld.Keeps.update (w : CWorld) (k : Nat) {f : CacheObj → CacheObj}
    (h : ∀ c, (f c).under = c.under ∧ (f c).wrapped = c.wrapped) : w.Keeps (w.update k f) := by
  refine ⟨by simp [CWorld.update], fun j c hc => ?_⟩
  by_cases hk : k = j
  · subst hk
    refine ⟨f c, by simp [CWorld.update, hc], h c⟩
  · refine ⟨c, ?_, rfl, rfl⟩
    simp [CWorld.update, hk, hc]

/-- The effect on the other objects is that of reads. -/
def CWorld.Traced (w w' : CWorld) : Prop :=
  w.Keeps w' ∧ ∃ tr : List JOp, w.base.runFrom tr = .ok w'.base ∧ ∀ op ∈ tr, op.quiet = true

theorem CWorld.Traced.update {w w' : CWorld} (h : w.Traced w') (k : Nat) {f : CacheObj → CacheObj}
    (hf : ∀ c, (f c).under = c.under ∧ (f c).wrapped = c.wrapped) : w.Traced (w'.update k f) :=
  ⟨h.1.trans (.update w' k hf), h.2⟩

theorem CWorld.Traced.refl (w : CWorld) : w.Traced w := ⟨.refl w, [], rfl, fun _ h => by cases h⟩

theorem World.runFrom_one {w w' : World} {op : JOp} {a : JAnswer} (h : op.run w = .ok (a, w')) :
    w.runFrom [op] = .ok w' := by
  simp [World.runFrom, h, Except.bind]

theorem CWorld.Traced.one {w : CWorld} {b : World} {op : JOp} {a : JAnswer} (h : op.run w.base = .ok (a, b))
    (hq : op.quiet = true) : w.Traced { w with base := b } :=
  ⟨.of_eq rfl, [op], World.runFrom_one h, fun o ho => by rw [List.mem_singleton.1 ho]; exact hq⟩

theorem CWorld.readSource_traced : ∀ (n : Nat) (w w' : CWorld) (r : CRef) (s : Str),
    w.readSource n r = .ok (s, w') → w.Traced w'
  | 0, w, w', r, s, e => by cases r <;> cases e
  | n + 1, w, w', .obj j, s, e => by
    simp only [CWorld.readSource, Except.map_ok_iff] at e
    obtain ⟨⟨t, b⟩, h1, h2⟩ := e
    cases h2
    exact .one (op := .source j) (a := .text t) (by simp [JOp.run, h1, Except.map]) rfl
  | n + 1, w, w', .cached k, s, e => by
    simp only [CWorld.readSource] at e
    split at e
    · cases e
    · split at e
      · cases e; exact .refl w
      · simp only [Except.map_ok_iff] at e
        obtain ⟨⟨t, b⟩, h1, h2⟩ := e
        cases h2
        exact (CWorld.readSource_traced n _ _ _ _ h1).update k fun c => ⟨rfl, rfl⟩

theorem CWorld.readSize_traced : ∀ (n : Nat) (w w' : CWorld) (r : CRef) (s : Nat),
    w.readSize n r = .ok (s, w') → w.Traced w'
  | 0, w, w', r, s, e => by cases r <;> cases e
  | n + 1, w, w', .obj j, s, e => by
    simp only [CWorld.readSize, Except.map_ok_iff] at e
    obtain ⟨⟨t, b⟩, h1, h2⟩ := e
    cases h2
    exact .one (op := .size j) (a := .size t) (by simp [JOp.run, h1, Except.map]) rfl
  | n + 1, w, w', .cached k, s, e => by
    simp only [CWorld.readSize] at e
    split at e
    · cases e
    · split at e
      · cases e; exact .refl w
      · split at e
        · cases e; exact (CWorld.Traced.refl w).update k fun c => ⟨rfl, rfl⟩
        · simp only [Except.map_ok_iff] at e
          obtain ⟨⟨t, b⟩, h1, h2⟩ := e
          cases h2
          exact (CWorld.readSize_traced n _ _ _ _ h1).update k fun c => ⟨rfl, rfl⟩

theorem CWorld.readMap_traced : ∀ (n : Nat) (w w' : CWorld) (r : CRef) (o : Option JOpts) (m : Option Nat),
    w.readMap n r o = .ok (m, w') → w.Traced w'
  | 0, w, w', r, o, m, e => by cases r <;> cases e
  | n + 1, w, w', .obj j, o, m, e => by
    simp only [CWorld.readMap, Except.map_ok_iff] at e
    obtain ⟨⟨t, b⟩, h1, h2⟩ := e
    cases h2
    exact .one (op := .sourceAndMap j _ _) (a := t) h1 rfl
  | n + 1, w, w', .cached k, o, m, e => by
    simp only [CWorld.readMap] at e
    split at e
    · cases e
    · split at e
      · cases e; exact .refl w
      · simp only [Except.map_ok_iff] at e
        obtain ⟨⟨t, b⟩, h1, h2⟩ := e
        cases h2
        exact (CWorld.readMap_traced n _ _ _ _ _ h1).update k fun c => ⟨rfl, rfl⟩

theorem World.both_traced {w w' : World} {j : Nat} {c m : Bool} {x : Str × Option Nat}
    (e : w.both j c m = .ok (x, w')) :
    ∃ tr : List JOp, w.runFrom tr = .ok w' ∧ ∀ op ∈ tr, op.quiet = true := by
  simp only [World.both, Except.bind_ok_iff] at e
  obtain ⟨⟨a, u⟩, h1, h2⟩ := e
  dsimp only at h2
  split at h2
  · cases h2
    exact ⟨[.sourceAndMap j c m], World.runFrom_one (op := .sourceAndMap j c m) h1, fun o ho => by
      rw [List.mem_singleton.1 ho]; rfl⟩
  · rename_i k
    split at h2
    · cases h2
    · rename_i e he
      simp only [Except.map_ok_iff] at h2
      obtain ⟨q, h3, h4⟩ := h2
      cases h4
      refine ⟨[.sourceAndMap j c m, .get k .source], World.runFrom_append (b := [.get k .source])
        (World.runFrom_one (op := .sourceAndMap j c m) h1)
        (World.runFrom_one (a := .field (.text q.1)) ?_), fun o ho => ?_⟩
      · simp only [JOp.run, he, Emitted.get, h3]; rfl
      · simp only [List.mem_cons, List.not_mem_nil, or_false] at ho
        rcases ho with rfl | rfl <;> rfl
  · cases h2

theorem CWorld.readBoth_traced : ∀ (n : Nat) (w w' : CWorld) (r : CRef) (o : Option JOpts)
    (x : Str × Option Nat), w.readBoth n r o = .ok (x, w') → w.Traced w'
  | 0, w, w', r, o, m, e => by cases r <;> cases e
  | n + 1, w, w', .obj j, o, m, e => by
    simp only [CWorld.readBoth, Except.map_ok_iff] at e
    obtain ⟨⟨t, b⟩, h1, h2⟩ := e
    cases h2
    exact ⟨.of_eq rfl, World.both_traced h1⟩
  | n + 1, w, w', .cached k, o, m, e => by
    simp only [CWorld.readBoth] at e
    split at e
    · cases e
    · split at e
      · cases e; exact .refl w
      · simp only [Except.map_ok_iff] at e
        obtain ⟨⟨t, b⟩, h1, h2⟩ := e
        cases h2
        exact (CWorld.readMap_traced n _ _ _ _ _ h1).update k fun c => ⟨rfl, rfl⟩
      · simp only [Except.map_ok_iff] at e
        obtain ⟨⟨t, b⟩, h1, h2⟩ := e
        cases h2
        exact (CWorld.readSource_traced n _ _ _ _ h1).update k fun c => ⟨rfl, rfl⟩
      · simp only [Except.map_ok_iff] at e
        obtain ⟨⟨t, b⟩, h1, h2⟩ := e
        cases h2
        exact (CWorld.readBoth_traced n _ _ _ _ _ h1).update k fun c => ⟨rfl, rfl⟩

/-! ## Programs -/

/-- The state agrees with what the program says: the base has the objects described, and every
`CachedSource` stands for the object meant. -/
structure CWorld.Sound (w : CWorld) (t : CThings) : Prop where
  base : ∃ A, w.base.Inv A t.things
  stands : w.caches.map CacheObj.under = t.stands
  linked : ∀ (k : Nat) (c : CacheObj), w.caches[k]? = some c → w.under c.wrapped = some c.under

theorem CWorld.Sound.meant {w : CWorld} {t : CThings} (S : w.Sound t) {r : CRef} {j : Nat}
    (h : w.under r = some j) : t.meant r = j := by
  cases r with
  | obj i =>
    simp only [CWorld.under, Option.map_eq_some_iff] at h
    obtain ⟨_, -, rfl⟩ := h; rfl
  | cached k =>
    simp only [CWorld.under] at h
    simp [CThings.meant, ← S.stands, h]

theorem CWorld.Sound.arg {w : CWorld} {t : CThings} (S : w.Sound t) {a : CArg} {c : JSrc}
    (h : w.arg a = .ok c) : t.arg a = c := by
  cases a with
  | str s => cases h; rfl
  | ref r =>
    simp only [CWorld.arg] at h
    split at h
    · rename_i j hj
      cases h
      rw [CThings.arg, S.meant hj]
    · cases h

theorem CWorld.Sound.args {w : CWorld} {t : CThings} (S : w.Sound t) : ∀ {as : List CArg} {cs : List JSrc},
    w.args as = .ok cs → as.map t.arg = cs
  | [], cs, h => by cases h; rfl
  | a :: as, cs, h => by
    simp only [CWorld.args, Except.bind_ok_iff, Except.map_ok_iff] at h
    obtain ⟨c, h1, ds, h2, rfl⟩ := h
    rw [List.map_cons, S.arg h1, S.args h2]

/-- Objects are never removed. -/
theorem JOp.run_objs_length {w w' : World} {op : JOp} {a : JAnswer} (hp : op.Proper) {A : AHeap} {st : List JThing}
    (I : w.Inv A st) (e : op.run w = .ok (a, w')) : w.objs.length ≤ w'.objs.length := by
  obtain ⟨A', I'⟩ := JOp.run_inv I hp e
  rw [I.length, I'.length]
  have add : ∀ (st : List JThing) j i, (addTo st j i).length = st.length := by
    intro st j i; unfold addTo; split <;> simp
  have ask : ∀ (st : List JThing) j i, (askTo st j i).length = st.length := by
    intro st j i; unfold askTo; split <;> simp
  have adds : ∀ (is : List JSrc) (st : List JThing) j,
      (is.foldl (fun s i => addTo s j i) st).length = st.length := by
    intro is
    induction is with
    | nil => intro st j; rfl
    | cons i is ih => intro st j; rw [List.foldl_cons, ih, add]
  cases op <;> simp [jstep, add, ask, adds]

theorem CWorld.Sound.js {w w' : CWorld} {t : CThings} (S : w.Sound t) {op : JOp} (hp : op.Proper)
    {a : CReply} (e : w.js op = .ok (a, w')) : w'.Sound { t with things := jstep t.things op } := by
  simp only [CWorld.js, Except.map_ok_iff] at e
  obtain ⟨⟨x, b⟩, h1, h2⟩ := e
  cases h2
  obtain ⟨A, I⟩ := S.base
  obtain ⟨A', I'⟩ := JOp.run_inv I hp h1
  refine ⟨⟨A', I'⟩, S.stands, ?_⟩
  · intro k c hc
    have := S.linked k c hc
    have hl := JOp.run_objs_length hp I h1
    cases hw : c.wrapped with
    | cached i => rw [hw] at this; exact this
    | obj i =>
      rw [hw] at this
      simp only [CWorld.under, Option.map_eq_some_iff] at this ⊢
      obtain ⟨o, ho, hio⟩ := this
      have hi : i < w.base.objs.length := by
        rw [List.getElem?_eq_some_iff] at ho; exact ho.1
      exact ⟨b.objs[i], List.getElem?_eq_getElem (by omega), hio⟩

theorem CWorld.Keeps.under {w w' : CWorld} (h : w.Keeps w') (hl : w.base.objs.length ≤ w'.base.objs.length)
    {r : CRef} {j : Nat} (hu : w.under r = some j) : w'.under r = some j := by
  cases r with
  | obj i =>
    simp only [CWorld.under, Option.map_eq_some_iff] at hu ⊢
    obtain ⟨o, ho, rfl⟩ := hu
    have hi : i < w.base.objs.length := by
      rw [List.getElem?_eq_some_iff] at ho; exact ho.1
    exact ⟨w'.base.objs[i], List.getElem?_eq_getElem (by omega), rfl⟩
  | cached k =>
    simp only [CWorld.under, Option.map_eq_some_iff] at hu ⊢
    obtain ⟨c, hc, rfl⟩ := hu
    obtain ⟨c', h1, h2, -⟩ := h.fixed k c hc
    exact ⟨c', h1, h2⟩

theorem CWorld.Sound.traced {w w' : CWorld} {t : CThings} (S : w.Sound t) (h : w.Traced w') : w'.Sound t := by
  obtain ⟨hk, tr', h1, h2⟩ := h
  obtain ⟨A, I⟩ := S.base
  obtain ⟨A', I'⟩ : ∃ A', w'.base.Inv A' t.things := by
    have : ∀ (l : List JOp) (b b' : World) (A : AHeap), (∀ op ∈ l, op.quiet = true) → b.Inv A t.things →
        b.runFrom l = .ok b' → ∃ A', b'.Inv A' t.things := by
      intro l
      induction l with
      | nil => intro b b' A _ I e; cases e; exact ⟨A, I⟩
      | cons o l ih =>
        intro b b' A hl I e
        simp only [World.runFrom, Except.bind_ok_iff] at e
        obtain ⟨⟨a, u⟩, h, e⟩ := e
        obtain ⟨A1, I1⟩ := JOp.run_inv I (JOp.quiet_proper (hl o (by simp))) h
        rw [JOp.quiet_step (hl o (by simp))] at I1
        exact ih _ _ _ (fun o ho => hl o (by simp [ho])) I1 e
    exact this _ _ _ _ h2 I h1
  have hl : w.base.objs.length ≤ w'.base.objs.length := by
    rw [I.length, I'.length]; exact Nat.le_refl _
  refine ⟨⟨A', I'⟩, ?_, ?_⟩
  · rw [← S.stands]
    apply List.ext_getElem?
    intro k
    simp only [List.getElem?_map]
    cases hc : w.caches[k]? with
    | none =>
      have : w'.caches[k]? = none := by
        rw [List.getElem?_eq_none_iff] at hc ⊢; rw [hk.len]; exact hc
      rw [this]
    | some c =>
      obtain ⟨c', e1, e2, -⟩ := hk.fixed k c hc
      simp [e1, e2]
  · intro k c' hc'
    cases hc : w.caches[k]? with
    | none =>
      have : w'.caches[k]? = none := by
        rw [List.getElem?_eq_none_iff] at hc ⊢; rw [hk.len]; exact hc
      rw [this] at hc'; cases hc'
    | some c =>
      obtain ⟨c'', e1, e2, e3⟩ := hk.fixed k c hc
      rw [e1] at hc'
      cases hc'
      rw [e2, e3]
      exact hk.under hl (S.linked k c hc)

theorem CWorld.empty_sound : CWorld.empty.Sound ⟨[], []⟩ :=
  ⟨World.run_inv (ops := []) (fun _ h => by cases h) rfl, rfl, fun k c h => by simp [CWorld.empty] at h⟩

theorem COp.run_sound {w w' : CWorld} {t : CThings} (S : w.Sound t) {op : COp} (hp : op.Proper)
    {a : CReply} (e : op.run w = .ok (a, w')) : w'.Sound (cstep t op) := by
  cases op with
  | js op => exact S.js hp e
  | newCached r =>
    simp only [COp.run] at e
    split at e
    · cases e
    · rename_i j hj
      cases e
      refine ⟨S.base, by simp [cstep, S.stands, S.meant hj], ?_⟩
      intro k c hc
      have up' : ∀ {r' : CRef} {i : Nat} (x : List CacheObj), w.under r' = some i →
          CWorld.under { w with caches := w.caches ++ x } r' = some i := by
        intro r j x h
        cases r with
        | obj i => exact h
        | cached k =>
          simp only [CWorld.under, Option.map_eq_some_iff] at h ⊢
          obtain ⟨c, h1, h2⟩ := h
          exact ⟨c, getElem?_append_some h1, h2⟩
      simp only [List.getElem?_append] at hc
      split at hc
      · exact up' _ (S.linked k c hc)
      · simp only [List.getElem?_singleton] at hc
        split at hc
        · cases hc; exact up' _ hj
        · cases hc
  | newPrefix p a =>
    simp only [COp.run, Except.bind_ok_iff] at e
    obtain ⟨c, h1, h2⟩ := e
    have := S.js (op := .newPrefix p c) trivial h2
    rw [← S.arg h1] at this; exact this
  | newReplace a =>
    simp only [COp.run, Except.bind_ok_iff] at e
    obtain ⟨c, h1, h2⟩ := e
    have := S.js (op := .newReplace c) trivial h2
    rw [← S.arg h1] at this; exact this
  | newConcat as =>
    simp only [COp.run, Except.bind_ok_iff] at e
    obtain ⟨c, h1, h2⟩ := e
    have := S.js (op := .newConcat c) trivial h2
    rw [← S.args h1] at this; exact this
  | add j a =>
    simp only [COp.run, Except.bind_ok_iff] at e
    obtain ⟨c, h1, h2⟩ := e
    have := S.js (op := .add j c) trivial h2
    rw [← S.arg h1] at this; exact this
  | source k =>
    simp only [COp.run, Except.map_ok_iff] at e
    obtain ⟨⟨s, u⟩, h1, h2⟩ := e
    cases h2
    exact S.traced (CWorld.readSource_traced _ _ _ _ _ h1)
  | size k =>
    simp only [COp.run, Except.map_ok_iff] at e
    obtain ⟨⟨s, u⟩, h1, h2⟩ := e
    cases h2
    exact S.traced (CWorld.readSize_traced _ _ _ _ _ h1)
  | map k o =>
    simp only [COp.run, Except.map_ok_iff] at e
    obtain ⟨⟨s, u⟩, h1, h2⟩ := e
    cases h2
    exact S.traced (CWorld.readMap_traced _ _ _ _ _ _ h1)
  | both k o =>
    simp only [COp.run, Except.map_ok_iff] at e
    obtain ⟨⟨s, u⟩, h1, h2⟩ := e
    cases h2
    exact S.traced (CWorld.readBoth_traced _ _ _ _ _ _ h1)
  | hash k =>
    simp only [COp.run] at e
    split at e
    · cases e
    · exact S.js (op := .hash _) trivial e

theorem CWorld.runFrom_sound {ops : List COp} : ∀ {w w' : CWorld} {t : CThings}, w.Sound t →
    (∀ op ∈ ops, op.Proper) → w.runFrom ops = .ok w' → w'.Sound (ops.foldl cstep t) := by
  induction ops with
  | nil => intro w w' t S _ e; cases e; exact S
  | cons op ops ih =>
    intro w w' t S hp e
    simp only [CWorld.runFrom, Except.bind_ok_iff] at e
    obtain ⟨⟨a, u⟩, h1, h2⟩ := e
    exact ih (COp.run_sound S (hp op (by simp)) h1) (fun o h => hp o (by simp [h])) h2

theorem CWorld.run_sound {ops : List COp} {w : CWorld} (hp : ∀ op ∈ ops, op.Proper)
    (e : CWorld.run ops = .ok w) : w.Sound (cthings ops) :=
  CWorld.runFrom_sound CWorld.empty_sound hp e

end WS
