import Verif.Props.C58Reads
import Verif.Proofs.JsLabel
/-!
# Where the maps kept by CachedSources come from

The statements that are not reads are the same with and without `CachedSource`s, and every map kept is
an emitted pair of the object wrapped.
-/

namespace WS
open Spec

/-! ## Origin of maps -/

/-- Pair `m` was handed out by object `j` for these options or without options, after a part of the
program that has `lo` as its beginning; `b` is the state the rest of the program led to. -/
def Rooted (lo pre : List COp) (b : World) (j : Nat) (o : Option JOpts) (m : Nat) : Prop :=
  ∃ (a rest : List COp) (u : CWorld) (c md : Bool) (b1 : World) (tr : List JOp), pre = lo ++ (a ++ rest) ∧
    CWorld.run (lo ++ a) = .ok u ∧ ((c = asksColumns o ∧ md = asksModule o) ∨ (c = true ∧ md = true)) ∧
    u.base.emit j c md = .ok (.pair m, b1) ∧ b1.runFrom tr = .ok b ∧
    tr.filter JOp.loud = plainFrom (cthings (lo ++ a)) rest

theorem Rooted.step {lo pre : List COp} {b b' : World} {j : Nat} {o : Option JOpts} {m : Nat}
    (h : Rooted lo pre b j o m) {more : List COp} {tr' : List JOp} (e : b.runFrom tr' = .ok b')
    (he : tr'.filter JOp.loud = plainFrom (cthings pre) more) : Rooted lo (pre ++ more) b' j o m := by
  obtain ⟨a, rest, u, c, md, b1, tr, rfl, h2, h3, h4, h5, h6⟩ := h
  refine ⟨a, rest ++ more, u, c, md, b1, tr ++ tr', by simp, h2, h3, h4, World.runFrom_append h5 e, ?_⟩
  rw [List.filter_append, h6, he, plainFrom_append]
  congr 2
  simp only [cthings, List.foldl_append]

theorem Rooted.quiet {lo pre : List COp} {b b' : World} {j : Nat} {o : Option JOpts} {m : Nat}
    (h : Rooted lo pre b j o m) {tr' : List JOp} (e : b.runFrom tr' = .ok b')
    (he : tr'.filter JOp.loud = []) : Rooted lo pre b' j o m := by
  have := h.step (more := []) e (by rw [he]; rfl)
  rwa [List.append_nil] at this

theorem Rooted.any {lo pre : List COp} {b : World} {j : Nat} {o : Option JOpts} {m : Nat}
    (h : Rooted lo pre b j none m) : Rooted lo pre b j o m := by
  obtain ⟨a, rest, u, c, md, b1, tr, h1, h2, h3, h4⟩ := h
  exact ⟨a, rest, u, c, md, b1, tr, h1, h2, .inr (h3.elim id id), h4⟩

theorem Rooted.empty {lo pre : List COp} {b : World} {j : Nat} {m : Nat}
    (h : Rooted lo pre b j (some ⟨none, none⟩) m) : Rooted lo pre b j none m := by
  obtain ⟨a, rest, u, c, md, b1, tr, h1, h2, h3, h4⟩ := h
  exact ⟨a, rest, u, c, md, b1, tr, h1, h2, .inr (h3.elim id id), h4⟩

/-- Properties of a pair, an object and options in a state that reads of whatever kind leave, and that
options may be left out of where `CachedSource` does so. -/
structure Roots (V : World → Nat → Option JOpts → Nat → Prop) : Prop where
  quiet : ∀ {b b' : World} {j : Nat} {o : Option JOpts} {m : Nat} {tr : List JOp}, V b j o m →
    b.runFrom tr = .ok b' → tr.filter JOp.loud = [] → V b' j o m
  any : ∀ {b : World} {j : Nat} {o : Option JOpts} {m : Nat}, V b j none m → V b j o m
  empty : ∀ {b : World} {j : Nat} {m : Nat}, V b j (some ⟨none, none⟩) m → V b j none m

theorem Rooted.roots (lo pre : List COp) : Roots (Rooted lo pre) :=
  ⟨fun h e he => h.quiet e he, fun h => h.any, fun h => h.empty⟩

/-- The same of what is kept. -/
def KeptAt (V : World → Nat → Option JOpts → Nat → Prop) (b : World) (j : Nat) (o : Option JOpts) (x : Option Nat) :
    Prop :=
  ∀ m, x = some m → V b j o m

theorem CWorld.AllMaps.mono {w : CWorld} {V V' : Nat → Option JOpts → Option Nat → Prop} (h : w.AllMaps V)
    (hv : ∀ j o m, V j o m → V' j o m) : w.AllMaps V' :=
  fun k c o m hc hl => hv _ _ _ (h k c o m hc hl)

theorem World.emit_quiet {w b : World} {j : Nat} {c md : Bool} {a : JAnswer} (e : w.emit j c md = .ok (a, b)) :
    ∃ tr : List JOp, w.runFrom tr = .ok b ∧ tr.filter JOp.loud = [] :=
  ⟨[.sourceAndMap j c md], World.runFrom_one (op := .sourceAndMap j c md) e, rfl⟩

section
variable {V : World → Nat → Option JOpts → Nat → Prop}

/-- A pair the object hands out in this state has the property. -/
def World.Fresh (V : World → Nat → Option JOpts → Nat → Prop) (w : World) : Prop :=
  ∀ j o m b, w.emit j (wantsColumns o) (wantsModule o) = .ok (.pair m, b) → V b j o m

theorem World.Fresh.kept {w b : World} (F : w.Fresh V) {j : Nat} {o : Option JOpts} {a : JAnswer}
    (e : w.emit j (wantsColumns o) (wantsModule o) = .ok (a, b)) : KeptAt V b j o a.map? := by
  intro m hm
  cases a with
  | pair k => cases hm; exact F _ _ _ _ e
  | _ => cases hm

theorem CWorld.readMap_rooted (R : Roots V) : ∀ (n : Nat) (w w' : CWorld) (r : CRef) (j : Nat) (o : Option JOpts)
    (m : Option Nat), w.base.Fresh V →
    (∀ (k : Nat) (c : CacheObj), w.caches[k]? = some c → w.under c.wrapped = some c.under) →
    w.AllMaps (KeptAt V w.base) → w.under r = some j → w.readMap n r o = .ok (m, w') →
    KeptAt V w'.base j o m ∧ w'.AllMaps (KeptAt V w'.base)
  | 0, w, w', r, j, o, m, _, _, _, _, e => by cases r <;> cases e
  | n + 1, w, w', .obj i, j, o, m, hw, _, H, hu, e => by
    simp only [CWorld.readMap, Except.map_ok_iff] at e
    obtain ⟨⟨a, b⟩, h1, h2⟩ := e
    cases h2
    simp only [CWorld.under, Option.map_eq_some_iff] at hu
    obtain ⟨_, -, rfl⟩ := hu
    obtain ⟨tr, h3, h4⟩ := World.emit_quiet h1
    exact ⟨hw.kept h1, H.mono fun j o x hx m hm => R.quiet (hx m hm) h3 h4⟩
  | n + 1, w, w', .cached k, j, o, m, hw, L, H, hu, e => by
    simp only [CWorld.readMap] at e
    split at e
    · cases e
    · rename_i c hc
      simp only [CWorld.under, hc, Option.map_some, Option.some.injEq] at hu
      subst hu
      have key : ∀ {b : World} {m}, KeptAt V b c.under (some (o.getD ⟨none, none⟩)) m →
          KeptAt V b c.under o m := by
        intro b m h
        cases o with
        | none => exact fun m hm => R.empty (h m hm)
        | some o => exact h
      split at e
      · rename_i hl; cases e; exact ⟨key (H k c _ _ hc hl), H⟩
      · simp only [Except.map_ok_iff] at e
        obtain ⟨⟨t, b⟩, h1, h2⟩ := e
        cases h2
        obtain ⟨h3, h4⟩ := CWorld.readMap_rooted R n _ _ _ _ _ _ hw L H (L k c hc) h1
        exact ⟨fun m hm => R.any (h3 m hm), h4.cons hc (CWorld.readMap_traced _ _ _ _ _ _ h1).1
          (fun m hm => R.any (h3 m hm)) fun _ => ⟨rfl, rfl⟩⟩

theorem World.both_rooted (R : Roots V) {w : World} {b : World} (hw : w.Fresh V) {j : Nat}
    {o : Option JOpts} {x : Str × Option Nat} (e : w.both j (wantsColumns o) (wantsModule o) = .ok (x, b)) :
    KeptAt V b j o x.2 := by
  simp only [World.both, Except.bind_ok_iff] at e
  obtain ⟨⟨a, u⟩, h1, h2⟩ := e
  have K := hw.kept h1
  dsimp only at h2
  split at h2
  · cases h2; exact K
  · rename_i k
    split at h2
    · cases h2
    · rename_i e he
      simp only [Except.map_ok_iff] at h2
      obtain ⟨q, h3, h4⟩ := h2
      cases h4
      intro m hm
      refine R.quiet (K m hm) (tr := [.get k .source]) (World.runFrom_one (a := .field (.text q.1)) ?_) rfl
      simp only [JOp.run, he, Emitted.get, h3]; rfl
  · cases h2

theorem CWorld.readSource_rooted (R : Roots V) {n : Nat} {w w' : CWorld} {r : CRef} {s : Str}
    (H : w.AllMaps (KeptAt V w.base)) (e : w.readSource n r = .ok (s, w')) :
    w'.AllMaps (KeptAt V w'.base) := by
  obtain ⟨tr, h1, h2⟩ := (CWorld.readSource_traced _ _ _ _ _ e).trace
  exact (CWorld.readSource_maps _ _ _ _ _ H e).mono fun j o x hx m hm => R.quiet (hx m hm) h1 h2

theorem CWorld.readSize_rooted (R : Roots V) {n : Nat} {w w' : CWorld} {r : CRef} {s : Nat}
    (H : w.AllMaps (KeptAt V w.base)) (e : w.readSize n r = .ok (s, w')) :
    w'.AllMaps (KeptAt V w'.base) := by
  obtain ⟨tr, h1, h2⟩ := (CWorld.readSize_traced _ _ _ _ _ e).trace
  exact (CWorld.readSize_maps _ _ _ _ _ H e).mono fun j o x hx m hm => R.quiet (hx m hm) h1 h2

theorem CWorld.readBoth_rooted (R : Roots V) : ∀ (n : Nat) (w w' : CWorld) (r : CRef) (j : Nat) (o : Option JOpts)
    (x : Str × Option Nat), w.base.Fresh V →
    (∀ (k : Nat) (c : CacheObj), w.caches[k]? = some c → w.under c.wrapped = some c.under) →
    w.AllMaps (KeptAt V w.base) → w.under r = some j → w.readBoth n r o = .ok (x, w') →
    KeptAt V w'.base j o x.2 ∧ w'.AllMaps (KeptAt V w'.base)
  | 0, w, w', r, j, o, x, _, _, _, _, e => by cases r <;> cases e
  | n + 1, w, w', .obj i, j, o, x, hw, _, H, hu, e => by
    simp only [CWorld.readBoth, Except.map_ok_iff] at e
    obtain ⟨⟨y, b⟩, h1, h2⟩ := e
    cases h2
    simp only [CWorld.under, Option.map_eq_some_iff] at hu
    obtain ⟨_, -, rfl⟩ := hu
    obtain ⟨tr, h3, h4⟩ := World.both_traced h1
    exact ⟨World.both_rooted R hw h1, H.mono fun j o x hx m hm => R.quiet (hx m hm) h3 (filter_loud_of_quiet h4)⟩
  | n + 1, w, w', .cached k, j, o, x, hw, L, H, hu, e => by
    simp only [CWorld.readBoth] at e
    split at e
    · cases e
    · rename_i c hc
      simp only [CWorld.under, hc, Option.map_some, Option.some.injEq] at hu
      subst hu
      split at e
      · rename_i hl; cases e; exact ⟨H k c _ _ hc hl, H⟩
      · simp only [Except.map_ok_iff] at e
        obtain ⟨⟨t, b⟩, h1, h2⟩ := e
        cases h2
        obtain ⟨h3, h4⟩ := CWorld.readMap_rooted R n _ _ _ _ _ _ hw L H (L k c hc) h1
        exact ⟨h3, h4.cons hc (CWorld.readMap_traced _ _ _ _ _ _ h1).1 h3 fun _ => ⟨rfl, rfl⟩⟩
      · rename_i hl
        simp only [Except.map_ok_iff] at e
        obtain ⟨⟨t, b⟩, h1, h2⟩ := e
        cases h2
        have h4 := CWorld.readSource_rooted R H h1
        obtain ⟨tr, h5, h6⟩ := (CWorld.readSource_traced _ _ _ _ _ h1).trace
        exact ⟨fun m hm => R.quiet (H k c _ _ hc hl m hm) h5 h6, h4.update fun c o m hc hs => h4 k c o m hc hs⟩
      · simp only [Except.map_ok_iff] at e
        obtain ⟨⟨t, b⟩, h1, h2⟩ := e
        cases h2
        obtain ⟨h3, h4⟩ := CWorld.readBoth_rooted R n _ _ _ _ _ _ hw L H (L k c hc) h1
        exact ⟨h3, h4.cons hc (CWorld.readBoth_traced _ _ _ _ _ _ h1).1 h3 fun _ => ⟨rfl, rfl⟩⟩

/-- One statement. `V'` is the property after statements that make or edit objects. -/
theorem COp.run_roots (R : Roots V) {V' : World → Nat → Option JOpts → Nat → Prop} {w w' : CWorld} {t : CThings}
    (S : w.Sound t) (F : w.base.Fresh V) (H : w.AllMaps (KeptAt V w.base)) {op : COp} {a : CReply}
    (step : ∀ {b b' : World} {tr : List JOp}, b.runFrom tr = .ok b' → tr.filter JOp.loud = op.plain t →
      ∀ j o m, V b j o m → V' b' j o m) (e : op.run w = .ok (a, w')) :
    w'.AllMaps (KeptAt V' w'.base) ∧
    ∀ k o m, op.asked = some (k, o) → a.theMap = some m →
      ∃ j, t.stands[k]? = some j ∧ KeptAt V w'.base j o m := by
  obtain ⟨tr, ht, hf⟩ := COp.run_trace S e
  have js : ∀ {o : JOp}, w.js o = .ok (a, w') → w'.AllMaps (KeptAt V' w'.base) := fun e => by
    unfold CWorld.AllMaps
    rw [CWorld.js_caches e]
    exact CWorld.AllMaps.mono H fun j o x hx m hm => step ht hf j o m (hx m hm)
  have reads : ∀ {u : CWorld}, op.plain t = [] → u.AllMaps (KeptAt V u.base) → u.AllMaps (KeptAt V' u.base) :=
    fun ho h => h.mono fun j o x hx m hm => step (tr := []) rfl (by rw [ho]; rfl) j o m (hx m hm)
  have hc : ∀ (i : Nat), (∃ o m u, w.readMap (w.caches.length + 1) (.cached i) o = .ok (m, u)) ∨
      (∃ o m u, w.readBoth (w.caches.length + 1) (.cached i) o = .ok (m, u)) → ∃ c, w.caches[i]? = some c := by
    intro i h
    cases hc : w.caches[i]? with
    | none =>
      rcases h with ⟨o, m, u, h1⟩ | ⟨o, m, u, h1⟩
      · simp only [CWorld.readMap, hc] at h1; cases h1
      · simp only [CWorld.readBoth, hc] at h1; cases h1
    | some c => exact ⟨c, rfl⟩
  cases op with
  | js op => exact ⟨js e, fun k s m h => by cases h⟩
  | newCached r =>
    refine ⟨?_, fun k s m h => by cases h⟩
    simp only [COp.run] at e
    split at e
    · cases e
    · cases e
      refine reads rfl ?_
      intro k c o m hc hs
      simp only [List.getElem?_append] at hc
      split at hc
      · exact H k c o m hc hs
      · simp only [List.getElem?_singleton] at hc
        split at hc
        · cases hc; cases hs
        · cases hc
  | newPrefix p a =>
    simp only [COp.run, Except.bind_ok_iff] at e; obtain ⟨c, h1, h2⟩ := e
    exact ⟨js h2, fun k s m h => by cases h⟩
  | newReplace a =>
    simp only [COp.run, Except.bind_ok_iff] at e; obtain ⟨c, h1, h2⟩ := e
    exact ⟨js h2, fun k s m h => by cases h⟩
  | newConcat as =>
    simp only [COp.run, Except.bind_ok_iff] at e; obtain ⟨c, h1, h2⟩ := e
    exact ⟨js h2, fun k s m h => by cases h⟩
  | add j a =>
    simp only [COp.run, Except.bind_ok_iff] at e; obtain ⟨c, h1, h2⟩ := e
    exact ⟨js h2, fun k s m h => by cases h⟩
  | source i =>
    simp only [COp.run, Except.map_ok_iff] at e
    obtain ⟨⟨s, u⟩, h1, h2⟩ := e
    cases h2
    exact ⟨reads rfl (CWorld.readSource_rooted R H h1), fun k s m h => by cases h⟩
  | size i =>
    simp only [COp.run, Except.map_ok_iff] at e
    obtain ⟨⟨s, u⟩, h1, h2⟩ := e
    cases h2
    exact ⟨reads rfl (CWorld.readSize_rooted R H h1), fun k s m h => by cases h⟩
  | map i o =>
    simp only [COp.run, Except.map_ok_iff] at e
    obtain ⟨⟨s, u⟩, h1, h2⟩ := e
    cases h2
    obtain ⟨c, hc⟩ := hc i (.inl ⟨_, _, _, h1⟩)
    obtain ⟨h3, h4⟩ := CWorld.readMap_rooted R _ _ _ _ _ _ _ F S.linked H
      (show w.under (.cached i) = some c.under by simp [CWorld.under, hc]) h1
    refine ⟨reads rfl h4, fun k o' m h hm => ?_⟩
    cases hm
    have : k = i := by cases o <;> (cases h; rfl)
    subst this
    refine ⟨c.under, by rw [← S.stands]; simp [hc], ?_⟩
    cases o with
    | none => cases h; exact fun m hm => R.any (h3 m hm)
    | some o => cases h; exact h3
  | both i o =>
    simp only [COp.run, Except.map_ok_iff] at e
    obtain ⟨⟨⟨s, m⟩, u⟩, h1, h2⟩ := e
    cases h2
    obtain ⟨c, hc⟩ := hc i (.inr ⟨_, _, _, h1⟩)
    obtain ⟨h3, h4⟩ := CWorld.readBoth_rooted R _ _ _ _ _ _ _ F S.linked H
      (show w.under (.cached i) = some c.under by simp [CWorld.under, hc]) h1
    refine ⟨reads rfl h4, fun k o' m' h hm => ?_⟩
    cases h
    cases hm
    exact ⟨c.under, by rw [← S.stands]; simp [hc], h3⟩
  | hash i =>
    simp only [COp.run] at e
    split at e
    · cases e
    · exact ⟨js e, fun k s m h => by cases h⟩

end

/-- The same of what is kept. -/
abbrev RootedAt (lo pre : List COp) (b : World) (j : Nat) (o : Option JOpts) (x : Option Nat) : Prop :=
  KeptAt (Rooted lo pre) b j o x

theorem CWorld.fresh_rooted {lo pre : List COp} {w : CWorld} (hw : CWorld.run (lo ++ pre) = .ok w) :
    w.base.Fresh (Rooted lo (lo ++ pre)) := by
  intro j o m b e
  rw [wantsColumns_eq, wantsModule_eq] at e
  exact ⟨pre, [], w, _, _, b, [], by simp, hw, .inl ⟨rfl, rfl⟩, e, rfl, rfl⟩

theorem COp.run_rooted {lo pre : List COp} {w w' : CWorld} (hp : ∀ op ∈ lo ++ pre, op.Proper)
    (hw : CWorld.run (lo ++ pre) = .ok w)
    (H : w.AllMaps (RootedAt lo (lo ++ pre) w.base)) {op : COp} {a : CReply} (e : op.run w = .ok (a, w')) :
    w'.AllMaps (RootedAt lo (lo ++ pre ++ [op]) w'.base) ∧
    ∀ k o m, op.asked = some (k, o) → a.theMap = some m →
      ∃ j, (cthings (lo ++ pre)).stands[k]? = some j ∧ RootedAt lo (lo ++ pre) w'.base j o m :=
  COp.run_roots (Rooted.roots lo (lo ++ pre)) (CWorld.run_sound hp hw) (CWorld.fresh_rooted hw) H
    (fun e he j o m h => h.step e (by rw [he]; simp [plainFrom])) e

theorem CWorld.runFrom_rooted {lo : List COp} : ∀ {ops pre : List COp} {w w' : CWorld},
    (∀ op ∈ lo ++ (pre ++ ops), op.Proper) → CWorld.run (lo ++ pre) = .ok w →
    w.AllMaps (RootedAt lo (lo ++ pre) w.base) → w.runFrom ops = .ok w' →
    w'.AllMaps (RootedAt lo (lo ++ (pre ++ ops)) w'.base)
  | [], pre, w, w', _, _, H, e => by cases e; simpa using H
  | op :: ops, pre, w, w', hp, hw, H, e => by
    simp only [CWorld.runFrom, Except.bind_ok_iff] at e
    obtain ⟨⟨x, u⟩, h1, h2⟩ := e
    have h3 := (COp.run_rooted (fun o h => hp o (by
      rcases List.mem_append.1 h with h | h <;> simp [h])) hw H h1).1
    rw [List.append_assoc] at h3
    have h4 : CWorld.run (lo ++ (pre ++ [op])) = .ok u := by
      rw [← List.append_assoc]
      refine CWorld.run_append hw ?_
      simp only [CWorld.runFrom, Except.bind_ok_iff]
      exact ⟨_, h1, rfl⟩
    have := CWorld.runFrom_rooted (ops := ops) (pre := pre ++ [op]) (by simpa using hp) h4 h3 h2
    simpa using this

/-- Before any map is asked for, none is kept. -/
theorem CWorld.runFrom_unasked : ∀ {ops : List COp} {w w' : CWorld}, (∀ op ∈ ops, op.asked = none) →
    (∀ c ∈ w.caches, c.maps = []) → w.runFrom ops = .ok w' → ∀ c ∈ w'.caches, c.maps = []
  | [], w, w', _, H, e => by cases e; exact H
  | op :: ops, w, w', ha, H, e => by
    simp only [CWorld.runFrom, Except.bind_ok_iff] at e
    obtain ⟨⟨x, u⟩, h1, h2⟩ := e
    refine CWorld.runFrom_unasked (fun o h => ha o (by simp [h])) ?_ h2
    have up : ∀ {v : CWorld}, v.AllMaps (fun _ _ _ => False) → ∀ c ∈ v.caches, c.maps = [] := by
      intro v hv c hc
      obtain ⟨k, hk⟩ := List.mem_iff_getElem?.1 hc
      cases hm : c.maps with
      | nil => rfl
      | cons y ys => exact (hv k c y.1 y.2 hk (by rw [hm]; obtain ⟨a, b⟩ := y; simp)).elim
    have down : w.AllMaps (fun _ _ _ => False) := by
      intro k c o m hc hl
      rw [H c (List.mem_of_getElem? hc)] at hl; cases hl
    have js : ∀ {o : JOp}, w.js o = .ok (x, u) → ∀ c ∈ u.caches, c.maps = [] := fun e => by
      rw [CWorld.js_caches e]; exact H
    cases op with
    | js op => exact js h1
    | newCached r =>
      simp only [COp.run] at h1
      split at h1
      · cases h1
      · cases h1
        intro c hc
        rcases List.mem_append.1 hc with hc | hc
        · exact H c hc
        · rw [List.mem_singleton.1 hc]
    | newPrefix p a => simp only [COp.run, Except.bind_ok_iff] at h1; obtain ⟨c, _, h2⟩ := h1; exact js h2
    | newReplace a => simp only [COp.run, Except.bind_ok_iff] at h1; obtain ⟨c, _, h2⟩ := h1; exact js h2
    | newConcat as => simp only [COp.run, Except.bind_ok_iff] at h1; obtain ⟨c, _, h2⟩ := h1; exact js h2
    | add j a => simp only [COp.run, Except.bind_ok_iff] at h1; obtain ⟨c, _, h2⟩ := h1; exact js h2
    | source i =>
      simp only [COp.run, Except.map_ok_iff] at h1
      obtain ⟨⟨s, v⟩, h3, h4⟩ := h1
      cases h4
      exact up (CWorld.readSource_maps _ _ _ _ _ down h3)
    | size i =>
      simp only [COp.run, Except.map_ok_iff] at h1
      obtain ⟨⟨s, v⟩, h3, h4⟩ := h1
      cases h4
      exact up (CWorld.readSize_maps _ _ _ _ _ down h3)
    | map i o => have := ha (.map i o) (by simp); cases o <;> cases this
    | both i o => have := ha (.both i o) (by simp); cases this
    | hash i =>
      simp only [COp.run] at h1
      split at h1
      · cases h1
      · exact js h1

end WS
