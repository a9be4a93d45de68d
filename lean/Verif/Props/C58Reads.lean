import Verif.Props.C58
import Verif.Props.C51
/-!
# C58, further reads of a CachedSource

Maps (`C58_map`, `C58_map_kept`), sizes (`C58_size_partial`), hashes (`C58_hash`), and that reads of a
`CachedSource` return whenever those of the wrapped object do (`C58_returns`).
-/

namespace WS
open Spec

/-! ## Maps stay -/

/-- `CachedSource` number `k` keeps a map for these options. -/
def CWorld.HasMap (w : CWorld) (k : Nat) (o : Option JOpts) (m : Option Nat) : Prop :=
  ∃ c, w.caches[k]? = some c ∧ c.maps.lookup o = some m

theorem CWorld.HasMap.update {w : CWorld} {k i : Nat} {o : Option JOpts} {m : Option Nat} (h : w.HasMap k o m)
    {f : CacheObj → CacheObj}
    (hf : k = i → ∀ c, c.maps.lookup o = some m → (f c).maps.lookup o = some m) : (w.update i f).HasMap k o m := by
  obtain ⟨c, h1, h2⟩ := h
  by_cases hk : i = k
  · subst hk
    exact ⟨f c, by simp [CWorld.update, h1], hf rfl c h2⟩
  · exact ⟨c, by simp [CWorld.update, hk, h1], h2⟩

/-- A map kept for other options changes nothing. -/
theorem CWorld.HasMap.cons {w w' : CWorld} {k i : Nat} {o o' : Option JOpts} {m m' : Option Nat}
    (h : w.HasMap k o m) (h' : w'.HasMap k o m) {c : CacheObj} (hc : w.caches[i]? = some c)
    (hn : c.maps.lookup o' = none) {f : CacheObj → CacheObj} (hf : ∀ c, (f c).maps = (o', m') :: c.maps) :
    (w'.update i f).HasMap k o m := by
  refine h'.update fun hk c' hc' => ?_
  subst hk
  rw [hf, List.lookup_cons]
  have : (o == o') = false := by
    rw [beq_eq_false_iff_ne]
    rintro rfl
    obtain ⟨d, h1, h2⟩ := h
    rw [hc] at h1; cases h1
    rw [hn] at h2; cases h2
  rw [this]; exact hc'

theorem CWorld.readSource_hasMap {k : Nat} {o : Option JOpts} {m : Option Nat} : ∀ (n : Nat) (w w' : CWorld)
    (r : CRef) (t : Str), w.HasMap k o m → w.readSource n r = .ok (t, w') → w'.HasMap k o m
  | 0, w, w', r, t, _, e => by cases r <;> cases e
  | n + 1, w, w', .obj j, t, H, e => by
    simp only [CWorld.readSource, Except.map_ok_iff] at e
    obtain ⟨_, h1, h2⟩ := e
    cases h2
    exact H
  | n + 1, w, w', .cached i, t, H, e => by
    simp only [CWorld.readSource] at e
    split at e
    · cases e
    · split at e
      · cases e; exact H
      · simp only [Except.map_ok_iff] at e
        obtain ⟨⟨t, b⟩, h1, h2⟩ := e
        cases h2
        exact (CWorld.readSource_hasMap n _ _ _ _ H h1).update fun _ c h => h

theorem CWorld.readSize_hasMap {k : Nat} {o : Option JOpts} {m : Option Nat} : ∀ (n : Nat) (w w' : CWorld)
    (r : CRef) (t : Nat), w.HasMap k o m → w.readSize n r = .ok (t, w') → w'.HasMap k o m
  | 0, w, w', r, t, _, e => by cases r <;> cases e
  | n + 1, w, w', .obj j, t, H, e => by
    simp only [CWorld.readSize, Except.map_ok_iff] at e
    obtain ⟨_, h1, h2⟩ := e
    cases h2
    exact H
  | n + 1, w, w', .cached i, t, H, e => by
    simp only [CWorld.readSize] at e
    split at e
    · cases e
    · split at e
      · cases e; exact H
      · split at e
        · cases e; exact H.update fun _ c h => h
        · simp only [Except.map_ok_iff] at e
          obtain ⟨⟨t, b⟩, h1, h2⟩ := e
          cases h2
          exact (CWorld.readSize_hasMap n _ _ _ _ H h1).update fun _ c h => h

theorem CWorld.readMap_hasMap {k : Nat} {o : Option JOpts} {m : Option Nat} : ∀ (n : Nat) (w w' : CWorld)
    (r : CRef) (o' : Option JOpts) (t : Option Nat), w.HasMap k o m → w.readMap n r o' = .ok (t, w') →
    w'.HasMap k o m
  | 0, w, w', r, o', t, _, e => by cases r <;> cases e
  | n + 1, w, w', .obj j, o', t, H, e => by
    simp only [CWorld.readMap, Except.map_ok_iff] at e
    obtain ⟨_, h1, h2⟩ := e
    cases h2
    exact H
  | n + 1, w, w', .cached i, o', t, H, e => by
    simp only [CWorld.readMap] at e
    split at e
    · cases e
    · rename_i c hc
      split at e
      · cases e; exact H
      · rename_i hn
        simp only [Except.map_ok_iff] at e
        obtain ⟨⟨t, b⟩, h1, h2⟩ := e
        cases h2
        exact H.cons (CWorld.readMap_hasMap n _ _ _ _ _ H h1) hc hn fun _ => rfl

theorem CWorld.readBoth_hasMap {k : Nat} {o : Option JOpts} {m : Option Nat} : ∀ (n : Nat) (w w' : CWorld)
    (r : CRef) (o' : Option JOpts) (t : Str × Option Nat), w.HasMap k o m → w.readBoth n r o' = .ok (t, w') →
    w'.HasMap k o m
  | 0, w, w', r, o', t, _, e => by cases r <;> cases e
  | n + 1, w, w', .obj j, o', t, H, e => by
    simp only [CWorld.readBoth, Except.map_ok_iff] at e
    obtain ⟨_, h1, h2⟩ := e
    cases h2
    exact H
  | n + 1, w, w', .cached i, o', t, H, e => by
    simp only [CWorld.readBoth] at e
    split at e
    · cases e
    · rename_i c hc
      split at e
      · cases e; exact H
      · rename_i hn
        simp only [Except.map_ok_iff] at e
        obtain ⟨⟨t, b⟩, h1, h2⟩ := e
        cases h2
        exact H.cons (CWorld.readMap_hasMap n _ _ _ _ _ H h1) hc hn fun _ => rfl
      · simp only [Except.map_ok_iff] at e
        obtain ⟨⟨t, b⟩, h1, h2⟩ := e
        cases h2
        exact (CWorld.readSource_hasMap n _ _ _ _ H h1).update fun _ c h => h
      · rename_i hn
        simp only [Except.map_ok_iff] at e
        obtain ⟨⟨t, b⟩, h1, h2⟩ := e
        cases h2
        exact H.cons (CWorld.readBoth_hasMap n _ _ _ _ _ H h1) hc hn fun _ => rfl

theorem CWorld.HasMap.run {w w' : CWorld} {k : Nat} {o : Option JOpts} {m : Option Nat} (H : w.HasMap k o m)
    {op : COp} {a : CReply} (e : op.run w = .ok (a, w')) : w'.HasMap k o m := by
  have js : ∀ {op : JOp}, w.js op = .ok (a, w') → w'.HasMap k o m := fun e => by
    unfold CWorld.HasMap; rw [CWorld.js_caches e]; exact H
  cases op with
  | js op => exact js e
  | newCached r =>
    simp only [COp.run] at e
    split at e
    · cases e
    · cases e
      obtain ⟨c, h1, h2⟩ := H
      exact ⟨c, getElem?_append_some h1, h2⟩
  | newPrefix p a => simp only [COp.run, Except.bind_ok_iff] at e; obtain ⟨c, h1, h2⟩ := e; exact js h2
  | newReplace a => simp only [COp.run, Except.bind_ok_iff] at e; obtain ⟨c, h1, h2⟩ := e; exact js h2
  | newConcat as => simp only [COp.run, Except.bind_ok_iff] at e; obtain ⟨c, h1, h2⟩ := e; exact js h2
  | add j a => simp only [COp.run, Except.bind_ok_iff] at e; obtain ⟨c, h1, h2⟩ := e; exact js h2
  | source i =>
    simp only [COp.run, Except.map_ok_iff] at e
    obtain ⟨⟨s, u⟩, h1, h2⟩ := e
    cases h2
    exact CWorld.readSource_hasMap _ _ _ _ _ H h1
  | size i =>
    simp only [COp.run, Except.map_ok_iff] at e
    obtain ⟨⟨s, u⟩, h1, h2⟩ := e
    cases h2
    exact CWorld.readSize_hasMap _ _ _ _ _ H h1
  | map i o =>
    simp only [COp.run, Except.map_ok_iff] at e
    obtain ⟨⟨s, u⟩, h1, h2⟩ := e
    cases h2
    exact CWorld.readMap_hasMap _ _ _ _ _ _ H h1
  | both i o =>
    simp only [COp.run, Except.map_ok_iff] at e
    obtain ⟨⟨s, u⟩, h1, h2⟩ := e
    cases h2
    exact CWorld.readBoth_hasMap _ _ _ _ _ _ H h1
  | hash i =>
    simp only [COp.run] at e
    split at e
    · cases e
    · exact js e

theorem CWorld.HasMap.runFrom {k : Nat} {o : Option JOpts} {m : Option Nat} : ∀ {ops : List COp} {w w' : CWorld},
    w.HasMap k o m → w.runFrom ops = .ok w' → w'.HasMap k o m
  | [], w, w', H, e => by cases e; exact H
  | op :: ops, w, w', H, e => by
    simp only [CWorld.runFrom, Except.bind_ok_iff] at e
    obtain ⟨⟨a, u⟩, h1, h2⟩ := e
    exact (H.run h1).runFrom h2

theorem CWorld.HasMap.of_update {w : CWorld} {k : Nat} {o : Option JOpts} {m : Option Nat} {c : CacheObj}
    (hc : w.caches[k]? = some c) {f : CacheObj → CacheObj} (hf : ∀ c, (f c).maps = (o, m) :: c.maps) :
    (w.update k f).HasMap k o m :=
  ⟨f c, by simp [CWorld.update, hc], by rw [hf]; simp⟩

/-- A read leaves the map kept. -/
theorem COp.run_gives {w w' : CWorld} {op : COp} {k : Nat} {o : Option JOpts} {x : CReply} {m : Option Nat}
    (ha : op.asked = some (k, o)) (e : op.run w = .ok (x, w')) (hm : x.theMap = some m) : w'.HasMap k o m := by
  cases op with
  | map i o' =>
    have ho : i = k ∧ o = some (o'.getD ⟨none, none⟩) := by
      cases o' <;> (cases ha; exact ⟨rfl, rfl⟩)
    obtain ⟨rfl, rfl⟩ := ho
    simp only [COp.run, Except.map_ok_iff] at e
    obtain ⟨⟨s, u⟩, h1, h2⟩ := e
    cases h2
    cases hm
    simp only [CWorld.readMap] at h1
    split at h1
    · cases h1
    · rename_i c hc
      split at h1
      · rename_i hl; cases h1; exact ⟨c, hc, hl⟩
      · simp only [Except.map_ok_iff] at h1
        obtain ⟨⟨t, b⟩, h1, h2⟩ := h1
        cases h2
        obtain ⟨c', h3, -⟩ := (CWorld.readMap_traced _ _ _ _ _ _ h1).1.fixed i c hc
        exact .of_update h3 fun _ => rfl
  | both i o' =>
    cases ha
    simp only [COp.run, Except.map_ok_iff] at e
    obtain ⟨⟨s, u⟩, h1, h2⟩ := e
    cases h2
    cases hm
    simp only [CWorld.readBoth] at h1
    split at h1
    · cases h1
    · rename_i c hc
      split at h1
      · rename_i hl; cases h1; exact ⟨c, hc, hl⟩
      · simp only [Except.map_ok_iff] at h1
        obtain ⟨⟨t, b⟩, h1, h2⟩ := h1
        cases h2
        obtain ⟨c', h3, -⟩ := (CWorld.readMap_traced _ _ _ _ _ _ h1).1.fixed k c hc
        exact .of_update h3 fun _ => rfl
      · rename_i hl
        simp only [Except.map_ok_iff] at h1
        obtain ⟨⟨t, b⟩, h1, h2⟩ := h1
        cases h2
        exact (CWorld.readSource_hasMap _ _ _ _ _ ⟨c, hc, hl⟩ h1).update fun _ c h => h
      · simp only [Except.map_ok_iff] at h1
        obtain ⟨⟨t, b⟩, h1, h2⟩ := h1
        cases h2
        obtain ⟨c', h3, -⟩ := (CWorld.readBoth_traced _ _ _ _ _ _ h1).1.fixed k c hc
        exact .of_update h3 fun _ => rfl
  | _ => cases ha

/-- The map handed out for some options is handed out for the same options ever after. -/
theorem C58_map_kept (w w1 w2 w3 : CWorld) (more : List COp) (op op' : COp) (k : Nat) (o : Option JOpts)
    (x y : CReply) (m m' : Option Nat) (ha : op.asked = some (k, o)) (hb : op'.asked = some (k, o))
    (e : op.run w = .ok (x, w1)) (hm : x.theMap = some m) (e' : w1.runFrom more = .ok w2)
    (e'' : op'.run w2 = .ok (y, w3)) (hm' : y.theMap = some m') : m' = m := by
  obtain ⟨c, h1, h2⟩ := ((COp.run_gives ha e hm).runFrom e').run e''
  obtain ⟨c', h3, h4⟩ := COp.run_gives hb e'' hm'
  rw [h1] at h3; cases h3
  rw [h2] at h4; cases h4; rfl

/-! ## Which map -/

/-- The map that an object hands out for these options, or without options. -/
def Given (w : World) (j : Nat) (o : Option JOpts) (m : Option Nat) : Prop :=
  ∃ a w', (w.emit j (asksColumns o) (asksModule o) = .ok (a, w') ∨ w.emit j true true = .ok (a, w')) ∧ a.map? = m

theorem wantsColumns_eq (o : Option JOpts) : wantsColumns o = asksColumns o := by
  rcases o with _ | ⟨_ | _ | _, _ | _ | _⟩ <;> rfl

theorem wantsModule_eq (o : Option JOpts) : wantsModule o = asksModule o := by
  rcases o with _ | ⟨_ | _ | _, _ | _ | _⟩ <;> rfl

/-- Every map kept is right. -/
def CWorld.AllMaps (w : CWorld) (V : Nat → Option JOpts → Option Nat → Prop) : Prop :=
  ∀ (k : Nat) (c : CacheObj) (o : Option JOpts) (m : Option Nat), w.caches[k]? = some c → c.maps.lookup o = some m →
    V c.under o m

theorem CWorld.AllMaps.update {w : CWorld} {V : Nat → Option JOpts → Option Nat → Prop} (h : w.AllMaps V) {k : Nat}
    {f : CacheObj → CacheObj} (hf : ∀ c o m, w.caches[k]? = some c → (f c).maps.lookup o = some m → V (f c).under o m) :
    (w.update k f).AllMaps V := by
  intro i c o m hc hs
  by_cases hk : k = i
  · subst hk
    cases hw : w.caches[k]? with
    | none => simp [CWorld.update, hw] at hc
    | some c' =>
      simp [CWorld.update, hw] at hc
      subst hc
      exact hf c' o m hw hs
  · simp [CWorld.update, hk] at hc
    exact h i c o m hc hs

theorem CWorld.AllMaps.cons {w w' : CWorld} {V : Nat → Option JOpts → Option Nat → Prop} (h : w'.AllMaps V)
    {k : Nat} {c : CacheObj} (hc : w.caches[k]? = some c) (hk : w.Keeps w') {o : Option JOpts} {m : Option Nat}
    (hV : V c.under o m) {f : CacheObj → CacheObj}
    (hf : ∀ c, (f c).maps = (o, m) :: c.maps ∧ (f c).under = c.under) : (w'.update k f).AllMaps V := by
  refine h.update fun c' o' m' hc' hl => ?_
  rw [(hf c').2]
  obtain ⟨d, h1, h2, -⟩ := hk.fixed k c hc
  rw [hc'] at h1
  cases h1
  rw [(hf c').1, List.lookup_cons] at hl
  split at hl
  · rename_i ho
    cases hl
    rw [eq_of_beq ho, h2]; exact hV
  · exact h k c' o' m' hc' hl

/-- The maps handed out by an object are right. -/
structure Gives (V : Nat → Option JOpts → Option Nat → Prop) (w : World) : Prop where
  given : ∀ j o m, Given w j o m → V j o m
  empty : ∀ j m, V j (some ⟨none, none⟩) m → V j none m
  any : ∀ j o m, V j none m → V j o m

theorem CWorld.readSource_maps {V : Nat → Option JOpts → Option Nat → Prop} : ∀ (n : Nat) (w w' : CWorld)
    (r : CRef) (s : Str), w.AllMaps V → w.readSource n r = .ok (s, w') → w'.AllMaps V
  | 0, w, w', r, s, _, e => by cases r <;> cases e
  | n + 1, w, w', .obj i, s, H, e => by
    simp only [CWorld.readSource, Except.map_ok_iff] at e
    obtain ⟨_, h1, h2⟩ := e
    cases h2
    exact H
  | n + 1, w, w', .cached k, s, H, e => by
    simp only [CWorld.readSource] at e
    split at e
    · cases e
    · split at e
      · cases e; exact H
      · simp only [Except.map_ok_iff] at e
        obtain ⟨⟨t, b⟩, h1, h2⟩ := e
        cases h2
        have := CWorld.readSource_maps n _ _ _ _ H h1
        exact this.update fun c o m hc hs => this k c o m hc hs

theorem CWorld.readSize_maps {V : Nat → Option JOpts → Option Nat → Prop} : ∀ (n : Nat) (w w' : CWorld)
    (r : CRef) (s : Nat), w.AllMaps V → w.readSize n r = .ok (s, w') → w'.AllMaps V
  | 0, w, w', r, s, _, e => by cases r <;> cases e
  | n + 1, w, w', .obj i, s, H, e => by
    simp only [CWorld.readSize, Except.map_ok_iff] at e
    obtain ⟨_, h1, h2⟩ := e
    cases h2
    exact H
  | n + 1, w, w', .cached k, s, H, e => by
    simp only [CWorld.readSize] at e
    split at e
    · cases e
    · split at e
      · cases e; exact H
      · split at e
        · cases e; exact H.update fun c o m hc hs => H k c o m hc hs
        · simp only [Except.map_ok_iff] at e
          obtain ⟨⟨t, b⟩, h1, h2⟩ := e
          cases h2
          have := CWorld.readSize_maps n _ _ _ _ H h1
          exact this.update fun c o m hc hs => this k c o m hc hs

theorem CWorld.readMap_maps {V : Nat → Option JOpts → Option Nat → Prop} : ∀ (n : Nat) (w w' : CWorld)
    (r : CRef) (j : Nat) (o : Option JOpts) (m : Option Nat), Gives V w.base →
    (∀ (k : Nat) (c : CacheObj), w.caches[k]? = some c → w.under c.wrapped = some c.under) →
    w.AllMaps V → w.under r = some j → w.readMap n r o = .ok (m, w') → V j o m ∧ w'.AllMaps V
  | 0, w, w', r, j, o, m, _, _, _, _, e => by cases r <;> cases e
  | n + 1, w, w', .obj i, j, o, m, G, _, H, hu, e => by
    simp only [CWorld.readMap, Except.map_ok_iff] at e
    obtain ⟨⟨a, b⟩, h1, h2⟩ := e
    cases h2
    simp only [CWorld.under, Option.map_eq_some_iff] at hu
    obtain ⟨_, -, rfl⟩ := hu
    rw [wantsColumns_eq, wantsModule_eq] at h1
    exact ⟨G.given _ _ _ ⟨a, b, .inl h1, rfl⟩, H⟩
  | n + 1, w, w', .cached k, j, o, m, G, L, H, hu, e => by
    simp only [CWorld.readMap] at e
    split at e
    · cases e
    · rename_i c hc
      simp only [CWorld.under, hc, Option.map_some, Option.some.injEq] at hu
      subst hu
      have key : ∀ m, V c.under (some (o.getD ⟨none, none⟩)) m → V c.under o m := by
        intro m h
        cases o with
        | none => exact G.empty _ _ h
        | some o => exact h
      split at e
      · rename_i hl; cases e; exact ⟨key _ (H k c _ _ hc hl), H⟩
      · simp only [Except.map_ok_iff] at e
        obtain ⟨⟨t, b⟩, h1, h2⟩ := e
        cases h2
        obtain ⟨h3, h4⟩ := CWorld.readMap_maps n _ _ _ _ _ _ G L H (L k c hc) h1
        exact ⟨G.any _ _ _ h3, h4.cons hc (CWorld.readMap_traced _ _ _ _ _ _ h1).1 (G.any _ _ _ h3)
          fun _ => ⟨rfl, rfl⟩⟩

theorem World.both_given {w w' : World} {j : Nat} {c md : Bool} {x : Str × Option Nat}
    (e : w.both j c md = .ok (x, w')) : ∃ a u, w.emit j c md = .ok (a, u) ∧ a.map? = x.2 := by
  simp only [World.both, Except.bind_ok_iff] at e
  obtain ⟨⟨a, u⟩, h1, h2⟩ := e
  refine ⟨a, u, h1, ?_⟩
  dsimp only at h2
  split at h2
  · cases h2; rfl
  · split at h2
    · cases h2
    · simp only [Except.map_ok_iff] at h2
      obtain ⟨q, -, h3⟩ := h2
      cases h3; rfl
  · cases h2

theorem CWorld.readBoth_maps {V : Nat → Option JOpts → Option Nat → Prop} : ∀ (n : Nat) (w w' : CWorld)
    (r : CRef) (j : Nat) (o : Option JOpts) (x : Str × Option Nat), Gives V w.base →
    (∀ (k : Nat) (c : CacheObj), w.caches[k]? = some c → w.under c.wrapped = some c.under) →
    w.AllMaps V → w.under r = some j → w.readBoth n r o = .ok (x, w') → V j o x.2 ∧ w'.AllMaps V
  | 0, w, w', r, j, o, x, _, _, _, _, e => by cases r <;> cases e
  | n + 1, w, w', .obj i, j, o, x, G, _, H, hu, e => by
    simp only [CWorld.readBoth, Except.map_ok_iff] at e
    obtain ⟨⟨y, b⟩, h1, h2⟩ := e
    cases h2
    simp only [CWorld.under, Option.map_eq_some_iff] at hu
    obtain ⟨_, -, rfl⟩ := hu
    rw [wantsColumns_eq, wantsModule_eq] at h1
    obtain ⟨a, u, h3, h4⟩ := World.both_given h1
    exact ⟨G.given _ _ _ ⟨a, u, .inl h3, h4⟩, H⟩
  | n + 1, w, w', .cached k, j, o, x, G, L, H, hu, e => by
    simp only [CWorld.readBoth] at e
    split at e
    · cases e
    · rename_i c hc
      simp only [CWorld.under, hc, Option.map_some, Option.some.injEq] at hu
      subst hu
      split at e
      · rename_i hl; cases e; exact ⟨H k c _ _ hc hl, H⟩
      · simp only [Except.map_ok_iff] at e
        obtain ⟨⟨t, b⟩, h1, h2⟩ := e
        cases h2
        obtain ⟨h3, h4⟩ := CWorld.readMap_maps n _ _ _ _ _ _ G L H (L k c hc) h1
        exact ⟨h3, h4.cons hc (CWorld.readMap_traced _ _ _ _ _ _ h1).1 h3 fun _ => ⟨rfl, rfl⟩⟩
      · rename_i hl
        simp only [Except.map_ok_iff] at e
        obtain ⟨⟨t, b⟩, h1, h2⟩ := e
        cases h2
        have h4 := CWorld.readSource_maps n _ _ _ _ H h1
        exact ⟨H k c _ _ hc hl, h4.update fun c o m hc hs => h4 k c o m hc hs⟩
      · simp only [Except.map_ok_iff] at e
        obtain ⟨⟨t, b⟩, h1, h2⟩ := e
        cases h2
        obtain ⟨h3, h4⟩ := CWorld.readBoth_maps n _ _ _ _ _ _ G L H (L k c hc) h1
        exact ⟨h3, h4.cons hc (CWorld.readBoth_traced _ _ _ _ _ _ h1).1 h3 fun _ => ⟨rfl, rfl⟩⟩

theorem COp.run_maps {V : Nat → Option JOpts → Option Nat → Prop} {w w' : CWorld} {t : CThings} (S : w.Sound t)
    (G : Gives V w.base) (H : w.AllMaps V) {op : COp} {a : CReply} (e : op.run w = .ok (a, w')) :
    w'.AllMaps V ∧ ∀ k o m, op.asked = some (k, o) → a.theMap = some m → ∃ j, t.stands[k]? = some j ∧ V j o m := by
  have js : ∀ {op : JOp}, w.js op = .ok (a, w') → w'.AllMaps V := fun e => by
    unfold CWorld.AllMaps; rw [CWorld.js_caches e]; exact H
  cases op with
  | js op => exact ⟨js e, fun k s m h => by cases h⟩
  | newCached r =>
    refine ⟨?_, fun k s m h => by cases h⟩
    simp only [COp.run] at e
    split at e
    · cases e
    · cases e
      intro k c o m hc hs
      simp only [List.getElem?_append] at hc
      split at hc
      · exact H k c o m hc hs
      · simp only [List.getElem?_singleton] at hc
        split at hc
        · cases hc; cases hs
        · cases hc
  | newPrefix p a =>
    simp only [COp.run, Except.bind_ok_iff] at e; obtain ⟨c, h1, h2⟩ := e
    exact ⟨js h2, fun k s m h => by cases h⟩
  | newReplace a =>
    simp only [COp.run, Except.bind_ok_iff] at e; obtain ⟨c, h1, h2⟩ := e
    exact ⟨js h2, fun k s m h => by cases h⟩
  | newConcat as =>
    simp only [COp.run, Except.bind_ok_iff] at e; obtain ⟨c, h1, h2⟩ := e
    exact ⟨js h2, fun k s m h => by cases h⟩
  | add j a =>
    simp only [COp.run, Except.bind_ok_iff] at e; obtain ⟨c, h1, h2⟩ := e
    exact ⟨js h2, fun k s m h => by cases h⟩
  | source i =>
    simp only [COp.run, Except.map_ok_iff] at e
    obtain ⟨⟨s, u⟩, h1, h2⟩ := e
    cases h2
    exact ⟨CWorld.readSource_maps _ _ _ _ _ H h1, fun k s m h => by cases h⟩
  | size i =>
    simp only [COp.run, Except.map_ok_iff] at e
    obtain ⟨⟨s, u⟩, h1, h2⟩ := e
    cases h2
    exact ⟨CWorld.readSize_maps _ _ _ _ _ H h1, fun k s m h => by cases h⟩
  | map i o =>
    simp only [COp.run, Except.map_ok_iff] at e
    obtain ⟨⟨s, u⟩, h1, h2⟩ := e
    cases h2
    have hc : ∃ c, w.caches[i]? = some c := by
      cases hc : w.caches[i]? with
      | none => simp only [CWorld.readMap, hc] at h1; cases h1
      | some c => exact ⟨c, rfl⟩
    obtain ⟨c, hc⟩ := hc
    obtain ⟨h3, h4⟩ := CWorld.readMap_maps _ _ _ _ _ _ _ G S.linked H
      (show w.under (.cached i) = some c.under by simp [CWorld.under, hc]) h1
    refine ⟨h4, fun k o' m h hm => ?_⟩
    cases hm
    have : k = i := by cases o <;> (cases h; rfl)
    subst this
    refine ⟨c.under, by rw [← S.stands]; simp [hc], ?_⟩
    cases o with
    | none => cases h; exact G.any _ _ _ h3
    | some o => cases h; exact h3
  | both i o =>
    simp only [COp.run, Except.map_ok_iff] at e
    obtain ⟨⟨⟨s, m⟩, u⟩, h1, h2⟩ := e
    cases h2
    have hc : ∃ c, w.caches[i]? = some c := by
      cases hc : w.caches[i]? with
      | none => simp only [CWorld.readBoth, hc] at h1; cases h1
      | some c => exact ⟨c, rfl⟩
    obtain ⟨c, hc⟩ := hc
    obtain ⟨h3, h4⟩ := CWorld.readBoth_maps _ _ _ _ _ _ _ G S.linked H
      (show w.under (.cached i) = some c.under by simp [CWorld.under, hc]) h1
    refine ⟨h4, fun k o' m' h hm => ?_⟩
    cases h
    cases hm
    exact ⟨c.under, by rw [← S.stands]; simp [hc], h3⟩
  | hash i =>
    simp only [COp.run] at e
    split at e
    · cases e
    · exact ⟨js e, fun k s m h => by cases h⟩

theorem CWorld.runFrom_maps {V : Nat → Option JOpts → Option Nat → Prop} : ∀ {ops : List COp} {w w' : CWorld}
    {t : CThings}, w.Sound t → (∀ op ∈ ops, op.Proper) → w.AllMaps V →
    (∀ a b u, ops = a ++ b → w.runFrom a = .ok u → Gives V u.base) →
    w.runFrom ops = .ok w' → w'.AllMaps V
  | [], w, w', t, _, _, H, _, e => by cases e; exact H
  | op :: ops, w, w', t, S, hp, H, hT, e => by
    simp only [CWorld.runFrom, Except.bind_ok_iff] at e
    obtain ⟨⟨x, u⟩, h1, h2⟩ := e
    have h3 := (COp.run_maps S (hT [] _ w rfl rfl) H h1).1
    refine CWorld.runFrom_maps (COp.run_sound S (hp op (by simp)) h1) (fun o h => hp o (by simp [h])) h3 ?_ h2
    intro a b v hab hv
    refine hT (op :: a) b v (by simp [hab]) ?_
    simp only [CWorld.runFrom, Except.bind_ok_iff]
    exact ⟨_, h1, hv⟩

/-- The map a `CachedSource` hands out for some options is one that the wrapped object handed out before or
hands out now, asked with these options or without options. -/
theorem C58_map (ops : List COp) (w w' : CWorld) (hp : ∀ op ∈ ops, op.Proper) (e : CWorld.run ops = .ok w)
    (op : COp) (x : CReply) (k : Nat) (o : Option JOpts) (m : Option Nat) (ha : op.asked = some (k, o))
    (r : op.run w = .ok (x, w')) (hm : x.theMap = some m) :
    ∃ j, (cthings ops).stands[k]? = some j ∧
      ∃ a b u, ops = a ++ b ∧ CWorld.run a = .ok u ∧ Given u.base j o m := by
  let V : Nat → Option JOpts → Option Nat → Prop := fun j o m =>
    ∃ a b u, ops = a ++ b ∧ CWorld.run a = .ok u ∧ Given u.base j o m
  have G : ∀ a b u, ops = a ++ b → CWorld.run a = .ok u → Gives V u.base := by
    intro a b u hab hu
    refine ⟨fun j o m h => ⟨a, b, u, hab, hu, h⟩, ?_, ?_⟩
    · rintro j m ⟨a, b, u, h1, h2, ans, v, h3, h4⟩
      exact ⟨a, b, u, h1, h2, ans, v, h3, h4⟩
    · rintro j o m ⟨a, b, u, h1, h2, ans, v, h3, h4⟩
      exact ⟨a, b, u, h1, h2, ans, v, .inr (h3.elim id id), h4⟩
  have S0 : CWorld.empty.Sound ⟨[], []⟩ := CWorld.run_sound (ops := []) (by simp) rfl
  have H := CWorld.runFrom_maps (V := V) S0 hp (fun k c o m hc => by simp [CWorld.empty] at hc) G e
  exact (COp.run_maps (CWorld.run_sound hp e) (G ops [] w (by simp) e) H r).2 k o m ha hm

/-! ## Hashes -/

/-- `updateHash` of a `CachedSource` is that of the object it stands for. -/
theorem C58_hash (ops : List COp) (w : CWorld) (hp : ∀ op ∈ ops, op.Proper) (e : CWorld.run ops = .ok w)
    (k j : Nat) (hk : (cthings ops).stands[k]? = some j) :
    ((COp.hash k).run w).map Prod.fst = ((JOp.hash j).run w.base).map fun p => .js p.1 := by
  have S := CWorld.run_sound hp e
  rw [← S.stands] at hk
  simp only [COp.run, CWorld.under]
  rw [List.getElem?_map] at hk
  rw [hk]
  simp only [CWorld.js]
  cases (JOp.hash j).run w.base <;> rfl

/-! ## Sizes -/

/-- Every size kept is right. -/
def CWorld.AllSizes (w : CWorld) (U : Nat → Nat → Prop) : Prop :=
  ∀ (k : Nat) (c : CacheObj) (n : Nat), w.caches[k]? = some c → c.size = some n → U c.under n

theorem CWorld.AllSizes.update {w : CWorld} {U : Nat → Nat → Prop} (h : w.AllSizes U) {k : Nat}
    {f : CacheObj → CacheObj} (hf : ∀ c n, w.caches[k]? = some c → (f c).size = some n → U (f c).under n) :
    (w.update k f).AllSizes U := by
  intro i c n hc hs
  by_cases hk : k = i
  · subst hk
    cases hw : w.caches[k]? with
    | none => simp [CWorld.update, hw] at hc
    | some c' =>
      simp [CWorld.update, hw] at hc
      subst hc
      exact hf c' n hw hs
  · simp [CWorld.update, hk] at hc
    exact h i c n hc hs

theorem CWorld.readSource_sizes {U : Nat → Nat → Prop} : ∀ (n : Nat) (w w' : CWorld)
    (r : CRef) (s : Str), w.AllSizes U → w.readSource n r = .ok (s, w') → w'.AllSizes U
  | 0, w, w', r, s, _, e => by cases r <;> cases e
  | n + 1, w, w', .obj i, s, H, e => by
    simp only [CWorld.readSource, Except.map_ok_iff] at e
    obtain ⟨_, h1, h2⟩ := e
    cases h2
    exact H
  | n + 1, w, w', .cached k, s, H, e => by
    simp only [CWorld.readSource] at e
    split at e
    · cases e
    · split at e
      · cases e; exact H
      · simp only [Except.map_ok_iff] at e
        obtain ⟨⟨t, b⟩, h1, h2⟩ := e
        cases h2
        have := CWorld.readSource_sizes n _ _ _ _ H h1
        exact this.update fun c m hc hs => this k c m hc hs

theorem CWorld.readMap_sizes {U : Nat → Nat → Prop} : ∀ (n : Nat) (w w' : CWorld)
    (r : CRef) (o : Option JOpts) (m : Option Nat), w.AllSizes U → w.readMap n r o = .ok (m, w') → w'.AllSizes U
  | 0, w, w', r, o, m, _, e => by cases r <;> cases e
  | n + 1, w, w', .obj i, o, m, H, e => by
    simp only [CWorld.readMap, Except.map_ok_iff] at e
    obtain ⟨_, h1, h2⟩ := e
    cases h2
    exact H
  | n + 1, w, w', .cached k, o, m, H, e => by
    simp only [CWorld.readMap] at e
    split at e
    · cases e
    · split at e
      · cases e; exact H
      · simp only [Except.map_ok_iff] at e
        obtain ⟨⟨t, b⟩, h1, h2⟩ := e
        cases h2
        have := CWorld.readMap_sizes n _ _ _ _ _ H h1
        exact this.update fun c m hc hs => this k c m hc hs

theorem CWorld.readBoth_sizes {U : Nat → Nat → Prop} : ∀ (n : Nat) (w w' : CWorld)
    (r : CRef) (o : Option JOpts) (x : Str × Option Nat), w.AllSizes U → w.readBoth n r o = .ok (x, w') →
    w'.AllSizes U
  | 0, w, w', r, o, x, _, e => by cases r <;> cases e
  | n + 1, w, w', .obj i, o, x, H, e => by
    simp only [CWorld.readBoth, Except.map_ok_iff] at e
    obtain ⟨_, h1, h2⟩ := e
    cases h2
    exact H
  | n + 1, w, w', .cached k, o, x, H, e => by
    simp only [CWorld.readBoth] at e
    split at e
    · cases e
    · split at e
      · cases e; exact H
      · simp only [Except.map_ok_iff] at e
        obtain ⟨⟨t, b⟩, h1, h2⟩ := e
        cases h2
        have := CWorld.readMap_sizes n _ _ _ _ _ H h1
        exact this.update fun c m hc hs => this k c m hc hs
      · simp only [Except.map_ok_iff] at e
        obtain ⟨⟨t, b⟩, h1, h2⟩ := e
        cases h2
        have := CWorld.readSource_sizes n _ _ _ _ H h1
        exact this.update fun c m hc hs => this k c m hc hs
      · simp only [Except.map_ok_iff] at e
        obtain ⟨⟨t, b⟩, h1, h2⟩ := e
        cases h2
        have := CWorld.readBoth_sizes n _ _ _ _ _ H h1
        exact this.update fun c m hc hs => this k c m hc hs

theorem CWorld.readSize_sizes {T : Nat → Str → Prop} {U : Nat → Nat → Prop} : ∀ (n : Nat) (w w' : CWorld)
    (r : CRef) (j m : Nat), (∀ j s, T j s → U j (utf16Len s)) →
    (∀ j m b, w.base.readSize j = .ok (m, b) → U j m) →
    (∀ (k : Nat) (c : CacheObj), w.caches[k]? = some c → w.under c.wrapped = some c.under) →
    w.AllKept T → w.AllSizes U → w.under r = some j → w.readSize n r = .ok (m, w') → U j m ∧ w'.AllSizes U
  | 0, w, w', r, j, m, _, _, _, _, _, _, e => by cases r <;> cases e
  | n + 1, w, w', .obj i, j, m, _, hU, _, _, H, hu, e => by
    simp only [CWorld.readSize, Except.map_ok_iff] at e
    obtain ⟨⟨x, b⟩, h1, h2⟩ := e
    cases h2
    simp only [CWorld.under, Option.map_eq_some_iff] at hu
    obtain ⟨_, -, rfl⟩ := hu
    exact ⟨hU _ _ _ h1, H⟩
  | n + 1, w, w', .cached k, j, m, hT, hU, L, K, H, hu, e => by
    simp only [CWorld.readSize] at e
    split at e
    · cases e
    · rename_i c hc
      simp only [CWorld.under, hc, Option.map_some, Option.some.injEq] at hu
      subst hu
      split at e
      · rename_i hs; cases e; exact ⟨H k c _ hc hs, H⟩
      · split at e
        · rename_i hs
          cases e
          have := hT _ _ (K k c _ hc hs)
          refine ⟨this, H.update fun c' n hc' hn => ?_⟩
          rw [hc] at hc'; cases hc'
          cases hn
          exact this
        · simp only [Except.map_ok_iff] at e
          obtain ⟨⟨t, b⟩, h1, h2⟩ := e
          cases h2
          obtain ⟨h3, h4⟩ := CWorld.readSize_sizes n _ _ _ _ _ hT hU L K H (L k c hc) h1
          refine ⟨h3, h4.update fun c' s hc' hs => ?_⟩
          obtain ⟨c'', h5, h6, -⟩ := (CWorld.readSize_traced n _ _ _ _ h1).1.fixed k c hc
          rw [hc'] at h5
          cases h5
          cases hs
          dsimp only
          rw [h6]; exact h3

theorem COp.run_sizes {T : Nat → Str → Prop} {U : Nat → Nat → Prop} {w w' : CWorld} {t : CThings} (S : w.Sound t)
    (hT : ∀ j s, T j s → U j (utf16Len s)) (hU : ∀ j m b, w.base.readSize j = .ok (m, b) → U j m)
    (K : w.AllKept T) (H : w.AllSizes U) {op : COp} {a : CReply} (e : op.run w = .ok (a, w')) :
    w'.AllSizes U ∧ ∀ k n, op = .size k → a = .size n → ∃ j, t.stands[k]? = some j ∧ U j n := by
  have js : ∀ {op : JOp}, w.js op = .ok (a, w') → w'.AllSizes U := fun e => by
    unfold CWorld.AllSizes; rw [CWorld.js_caches e]; exact H
  cases op with
  | js op => exact ⟨js e, fun k n h => by cases h⟩
  | newCached r =>
    refine ⟨?_, fun k n h => by cases h⟩
    simp only [COp.run] at e
    split at e
    · cases e
    · cases e
      intro k c n hc hs
      simp only [List.getElem?_append] at hc
      split at hc
      · exact H k c n hc hs
      · simp only [List.getElem?_singleton] at hc
        split at hc
        · cases hc; cases hs
        · cases hc
  | newPrefix p a =>
    simp only [COp.run, Except.bind_ok_iff] at e; obtain ⟨c, h1, h2⟩ := e
    exact ⟨js h2, fun k n h => by cases h⟩
  | newReplace a =>
    simp only [COp.run, Except.bind_ok_iff] at e; obtain ⟨c, h1, h2⟩ := e
    exact ⟨js h2, fun k n h => by cases h⟩
  | newConcat as =>
    simp only [COp.run, Except.bind_ok_iff] at e; obtain ⟨c, h1, h2⟩ := e
    exact ⟨js h2, fun k n h => by cases h⟩
  | add j a =>
    simp only [COp.run, Except.bind_ok_iff] at e; obtain ⟨c, h1, h2⟩ := e
    exact ⟨js h2, fun k n h => by cases h⟩
  | source i =>
    simp only [COp.run, Except.map_ok_iff] at e
    obtain ⟨⟨s, u⟩, h1, h2⟩ := e
    cases h2
    exact ⟨CWorld.readSource_sizes _ _ _ _ _ H h1, fun k n h => by cases h⟩
  | size i =>
    simp only [COp.run, Except.map_ok_iff] at e
    obtain ⟨⟨s, u⟩, h1, h2⟩ := e
    cases h2
    have hc : ∃ c, w.caches[i]? = some c := by
      cases hc : w.caches[i]? with
      | none => simp only [CWorld.readSize, hc] at h1; cases h1
      | some c => exact ⟨c, rfl⟩
    obtain ⟨c, hc⟩ := hc
    obtain ⟨h3, h4⟩ := CWorld.readSize_sizes _ _ _ _ _ _ hT hU S.linked K H
      (show w.under (.cached i) = some c.under by simp [CWorld.under, hc]) h1
    refine ⟨h4, fun k n h ha => ?_⟩
    cases h; cases ha
    exact ⟨c.under, by rw [← S.stands]; simp [hc], h3⟩
  | map i o =>
    simp only [COp.run, Except.map_ok_iff] at e
    obtain ⟨⟨s, u⟩, h1, h2⟩ := e
    cases h2
    exact ⟨CWorld.readMap_sizes _ _ _ _ _ _ H h1, fun k n h => by cases h⟩
  | both i o =>
    simp only [COp.run, Except.map_ok_iff] at e
    obtain ⟨⟨⟨s, m⟩, u⟩, h1, h2⟩ := e
    cases h2
    exact ⟨CWorld.readBoth_sizes _ _ _ _ _ _ H h1, fun k n h => by cases h⟩
  | hash i =>
    simp only [COp.run] at e
    split at e
    · cases e
    · exact ⟨js e, fun k n h => by cases h⟩

theorem CWorld.runFrom_sizes {C : Bool → Prop} {T : Nat → Str → Prop} {U : Nat → Nat → Prop}
    (hTU : ∀ j s, T j s → U j (utf16Len s)) : ∀ {ops : List COp} {w w' : CWorld}
    {t : CThings}, w.Sound t → (∀ op ∈ ops, op.Proper) → (∀ op ∈ ops, op.Asks C) → w.AllKept T → w.AllSizes U →
    (∀ a b u, ops = a ++ b → w.runFrom a = .ok u → (∀ j s, Told C u.base j s → T j s) ∧
      ∀ j m b, u.base.readSize j = .ok (m, b) → U j m) →
    w.runFrom ops = .ok w' → w'.AllSizes U
  | [], w, w', t, _, _, _, _, H, _, e => by cases e; exact H
  | op :: ops, w, w', t, S, hp, ha, K, H, hT, e => by
    simp only [CWorld.runFrom, Except.bind_ok_iff] at e
    obtain ⟨⟨x, u⟩, h1, h2⟩ := e
    have h0 := hT [] _ w rfl rfl
    have h3 := (COp.run_told S h0.1 K (ha op (by simp)) h1).1
    have h4 := (COp.run_sizes S hTU h0.2 K H h1).1
    refine CWorld.runFrom_sizes hTU (COp.run_sound S (hp op (by simp)) h1) (fun o h => hp o (by simp [h]))
      (fun o h => ha o (by simp [h])) h3 h4 ?_ h2
    intro a b v hab hv
    refine hT (op :: a) b v (by simp [hab]) ?_
    simp only [CWorld.runFrom, Except.bind_ok_iff]
    exact ⟨_, h1, hv⟩

/-- The size of the text in one of the two units. -/
def SizeOf (st : List JThing) (j n : Nat) : Prop :=
  ∃ s, JText st (.obj j) s ∧ (n = utf16Units s ∨ n = s.utf8Encode.size)

/-- The size a `CachedSource` returns is that of the text of the object it stands for, in UTF-16 units or
in bytes. Conditions as in `C58_text_partial`; which unit depends on the order of reads (C25, C51). -/
theorem C58_size_partial (a b : List COp) (u w w' : CWorld) (k n : Nat)
    (hp : ∀ o ∈ a ++ b, o.Proper) (ea : CWorld.run a = .ok u)
    (hu : ∀ c ∈ u.caches, c.source = none ∧ c.size = none)
    (eb : u.runFrom b = .ok w) (hb : ∀ o ∈ b, ¬ o.Edits)
    (ho : (∀ o ∈ b, o.Asks fun _ => False) ∨ ((∀ o ∈ b, o.Asks (· = true)) ∧
      ∀ y ∈ (cthings (a ++ b)).things, ∀ p c, y ≠ .prefixed p c))
    (r : (COp.size k).run w = .ok (.size n, w')) :
    ∃ j, (cthings (a ++ b)).stands[k]? = some j ∧ SizeOf (cthings (a ++ b)).things j n := by
  have Su := CWorld.run_sound (fun o h => hp o (List.mem_append_left _ h)) ea
  have sized : ∀ j s, JText (cthings (a ++ b)).things (.obj j) s →
      SizeOf (cthings (a ++ b)).things j (utf16Len s) := fun j s h => ⟨s, h, .inl (utf16Len_eq s)⟩
  have main : ∀ C : Bool → Prop, (∀ o ∈ b, o.Asks C) → (∀ b1 b2 v, b = b1 ++ b2 →
      u.runFrom b1 = .ok v → (∀ j s, Told C v.base j s → JText (cthings (a ++ b)).things (.obj j) s) ∧
        ∀ j m x, v.base.readSize j = .ok (m, x) → SizeOf (cthings (a ++ b)).things j m) →
      ∃ j, (cthings (a ++ b)).stands[k]? = some j ∧ SizeOf (cthings (a ++ b)).things j n := by
    intro C hC hT
    have K0 : u.AllKept fun j s => JText (cthings (a ++ b)).things (.obj j) s :=
      fun k c s hc hs => by rw [(hu c (List.mem_of_getElem? hc)).1] at hs; cases hs
    have K := CWorld.runFrom_told Su
      (fun o h => hp o (List.mem_append_right _ h)) hC K0 (fun b1 b2 v h1 h2 => (hT b1 b2 v h1 h2).1) eb
    have H := CWorld.runFrom_sizes (T := fun j s => JText (cthings (a ++ b)).things (.obj j) s) sized Su
      (fun o h => hp o (List.mem_append_right _ h)) hC K0
      (fun k c s hc hs => by rw [(hu c (List.mem_of_getElem? hc)).2] at hs; cases hs) hT eb
    exact (COp.run_sizes (CWorld.run_sound hp (CWorld.run_append ea eb)) sized
      (hT b [] w (by simp) eb).2 K H r).2 k n rfl rfl
  have moment : ∀ b1 b2 v, b = b1 ++ b2 → u.runFrom b1 = .ok v → ∃ tr, World.run tr = .ok v.base ∧
      (∀ op ∈ tr, op.Proper) ∧ jthings tr = (cthings (a ++ b1)).things ∧
      ∃ r, (cthings (a ++ b)).things = (cthings (a ++ b1)).things ++ r := by
    intro b1 b2 v hb12 hv
    subst hb12
    obtain ⟨tr, h1, h2, h3⟩ := C58_transfer (a ++ b1) v (fun o h => hp o (by
      rcases List.mem_append.1 h with h | h <;> simp [h])) (CWorld.run_append ea hv)
    refine ⟨tr, h1, h3, h2, ?_⟩
    rw [← List.append_assoc]
    unfold cthings
    rw [List.foldl_append (l' := b2)]
    exact csteps_grow b2 _ fun o ho => hb o (by simp [ho])
  have size : ∀ b1 b2 v, b = b1 ++ b2 → u.runFrom b1 = .ok v → ∀ j m x, v.base.readSize j = .ok (m, x) →
      SizeOf (cthings (a ++ b)).things j m := by
    intro b1 b2 v hb12 hv j m x hm
    obtain ⟨tr, h1, h3, h2, rr, hr⟩ := moment b1 b2 v hb12 hv
    obtain ⟨A, I⟩ := World.run_inv h3 h1
    obtain ⟨k1, k2⟩ := C51_size tr v.base h3 h1 j
    have : ∃ p, v.base.readSource j = .ok p ∧ (m = utf16Units p.1 ∨ m = p.1.utf8Encode.size) := by
      by_cases hl : IsLeaf (jthings tr) j
      · have := k1 hl
        rw [hm] at this
        cases hs : v.base.readSource j with
        | error => rw [hs] at this; cases this
        | ok p => rw [hs] at this; exact ⟨p, rfl, .inl (by simpa [Except.map] using this)⟩
      · have := k2 hl
        rw [hm] at this
        cases hs : v.base.readSource j with
        | error => rw [hs] at this; cases this
        | ok p => rw [hs] at this; exact ⟨p, rfl, .inr (by simpa [Except.map] using this)⟩
    obtain ⟨⟨s, y⟩, hs, hsz⟩ := this
    refine ⟨s, ?_, hsz⟩
    rw [hr, ← h2]
    exact ((I.source_iff j s).1 ⟨_, hs⟩).grow rr
  rcases ho with ho | ⟨ho, hn⟩
  · refine main _ ho fun b1 b2 v hb12 hv => ⟨fun j s hs => ?_, size b1 b2 v hb12 hv⟩
    obtain ⟨tr, h1, h3, h2, r, hr⟩ := moment b1 b2 v hb12 hv
    obtain ⟨A, I⟩ := World.run_inv h3 h1
    rw [h2] at I
    rcases hs with h | ⟨_, _, _, _, h, _⟩
    · rw [hr]; exact ((I.source_iff j s).1 h).grow r
    · exact h.elim
  · refine main _ ho fun b1 b2 v hb12 hv => ⟨fun j s hs => ?_, size b1 b2 v hb12 hv⟩
    obtain ⟨tr, h1, h3, h2, r, hr⟩ := moment b1 b2 v hb12 hv
    obtain ⟨A, I⟩ := World.run_inv h3 h1
    rw [h2] at I
    rcases hs with h | ⟨c, m, i, v', rfl, h⟩
    · rw [hr]; exact ((I.source_iff j s).1 h).grow r
    · rw [hr]
      refine (I.both_text (fun x hx => hn x ?_) h).grow r
      rw [hr]; exact List.mem_append_left _ hx

/-! ## Reads return -/

/-- A `CachedSource` wraps things made before it. -/
def CWorld.Ordered (w : CWorld) : Prop :=
  ∀ (k : Nat) (c : CacheObj) (i : Nat), w.caches[k]? = some c → c.wrapped = .cached i → i < k

theorem CWorld.Ordered.keeps {w w' : CWorld} (h : w.Ordered) (hk : w.Keeps w') : w'.Ordered := by
  intro k c i hc hw
  have : k < w.caches.length := by rw [← hk.len]; exact (List.getElem?_eq_some_iff.1 hc).1
  obtain ⟨c', h1, -, h2⟩ := hk.fixed k _ (List.getElem?_eq_getElem this)
  rw [hc] at h1; cases h1
  exact h k _ i (List.getElem?_eq_getElem this) (h2.symm.trans hw)

theorem COp.run_ordered {w w' : CWorld} (h : w.Ordered) {op : COp} {a : CReply} (e : op.run w = .ok (a, w')) :
    w'.Ordered := by
  have js : ∀ {op : JOp}, w.js op = .ok (a, w') → w'.Ordered := fun e => h.keeps (.of_eq (CWorld.js_caches e))
  cases op with
  | js op => exact js e
  | newCached r =>
    simp only [COp.run] at e
    split at e
    · cases e
    · rename_i j hj
      cases e
      intro k c i hc hw
      simp only [List.getElem?_append] at hc
      split at hc
      · exact h k c i hc hw
      · rename_i hk
        simp only [List.getElem?_singleton] at hc
        split at hc
        · cases hc
          dsimp only at hw
          subst hw
          simp only [CWorld.under, Option.map_eq_some_iff] at hj
          obtain ⟨c, hc, -⟩ := hj
          have := (List.getElem?_eq_some_iff.1 hc).1
          omega
        · cases hc
  | newPrefix p a => simp only [COp.run, Except.bind_ok_iff] at e; obtain ⟨c, h1, h2⟩ := e; exact js h2
  | newReplace a => simp only [COp.run, Except.bind_ok_iff] at e; obtain ⟨c, h1, h2⟩ := e; exact js h2
  | newConcat as => simp only [COp.run, Except.bind_ok_iff] at e; obtain ⟨c, h1, h2⟩ := e; exact js h2
  | add j a => simp only [COp.run, Except.bind_ok_iff] at e; obtain ⟨c, h1, h2⟩ := e; exact js h2
  | source i =>
    simp only [COp.run, Except.map_ok_iff] at e
    obtain ⟨⟨s, u⟩, h1, h2⟩ := e
    cases h2
    exact h.keeps (CWorld.readSource_traced _ _ _ _ _ h1).1
  | size i =>
    simp only [COp.run, Except.map_ok_iff] at e
    obtain ⟨⟨s, u⟩, h1, h2⟩ := e
    cases h2
    exact h.keeps (CWorld.readSize_traced _ _ _ _ _ h1).1
  | map i o =>
    simp only [COp.run, Except.map_ok_iff] at e
    obtain ⟨⟨s, u⟩, h1, h2⟩ := e
    cases h2
    exact h.keeps (CWorld.readMap_traced _ _ _ _ _ _ h1).1
  | both i o =>
    simp only [COp.run, Except.map_ok_iff] at e
    obtain ⟨⟨s, u⟩, h1, h2⟩ := e
    cases h2
    exact h.keeps (CWorld.readBoth_traced _ _ _ _ _ _ h1).1
  | hash i =>
    simp only [COp.run] at e
    split at e
    · cases e
    · exact js e

theorem CWorld.runFrom_ordered : ∀ {ops : List COp} {w w' : CWorld}, w.Ordered → w.runFrom ops = .ok w' → w'.Ordered
  | [], w, w', h, e => by cases e; exact h
  | op :: ops, w, w', h, e => by
    simp only [CWorld.runFrom, Except.bind_ok_iff] at e
    obtain ⟨⟨a, u⟩, h1, h2⟩ := e
    exact CWorld.runFrom_ordered (COp.run_ordered h h1) h2

/-- The bound on the depth is enough. -/
def CRef.Fits (n : Nat) : CRef → Prop
  | .obj _ => 0 < n
  | .cached k => k + 1 < n

theorem CWorld.Ordered.fits {w : CWorld} (h : w.Ordered) {k n : Nat} {c : CacheObj} (hc : w.caches[k]? = some c)
    (hn : (CRef.cached k).Fits (n + 1)) : c.wrapped.Fits n := by
  simp only [CRef.Fits] at hn
  cases hw : c.wrapped with
  | obj j => simp only [CRef.Fits]; omega
  | cached i => have := h k c i hc hw; simp only [CRef.Fits]; omega

theorem CWorld.readSource_returns : ∀ (n : Nat) (w : CWorld) (r : CRef) (j : Nat), w.Ordered →
    (∀ (k : Nat) (c : CacheObj), w.caches[k]? = some c → w.under c.wrapped = some c.under) → r.Fits n →
    w.under r = some j → (∃ p, w.base.readSource j = .ok p) → ∃ p, w.readSource n r = .ok p
  | 0, _, r, _, _, _, h, _, _ => by cases r <;> simp [CRef.Fits] at h
  | n + 1, w, .obj i, j, _, _, _, hu, ⟨p, hp⟩ => by
    simp only [CWorld.under, Option.map_eq_some_iff] at hu
    obtain ⟨_, -, rfl⟩ := hu
    exact ⟨_, by simp only [CWorld.readSource, hp, Except.map]; rfl⟩
  | n + 1, w, .cached k, j, O, L, hn, hu, h => by
    simp only [CWorld.under, Option.map_eq_some_iff] at hu
    obtain ⟨c, hc, rfl⟩ := hu
    obtain ⟨p, hp⟩ := CWorld.readSource_returns n w c.wrapped _ O L (O.fits hc hn) (L k c hc) h
    simp only [CWorld.readSource, hc]
    split
    · exact ⟨_, rfl⟩
    · exact ⟨_, by rw [hp]; rfl⟩

theorem CWorld.readSize_returns : ∀ (n : Nat) (w : CWorld) (r : CRef) (j : Nat), w.Ordered →
    (∀ (k : Nat) (c : CacheObj), w.caches[k]? = some c → w.under c.wrapped = some c.under) → r.Fits n →
    w.under r = some j → (∃ p, w.base.readSize j = .ok p) → ∃ p, w.readSize n r = .ok p
  | 0, _, r, _, _, _, h, _, _ => by cases r <;> simp [CRef.Fits] at h
  | n + 1, w, .obj i, j, _, _, _, hu, ⟨p, hp⟩ => by
    simp only [CWorld.under, Option.map_eq_some_iff] at hu
    obtain ⟨_, -, rfl⟩ := hu
    exact ⟨_, by simp only [CWorld.readSize, hp, Except.map]; rfl⟩
  | n + 1, w, .cached k, j, O, L, hn, hu, h => by
    simp only [CWorld.under, Option.map_eq_some_iff] at hu
    obtain ⟨c, hc, rfl⟩ := hu
    obtain ⟨p, hp⟩ := CWorld.readSize_returns n w c.wrapped _ O L (O.fits hc hn) (L k c hc) h
    simp only [CWorld.readSize, hc]
    split
    · exact ⟨_, rfl⟩
    · split
      · exact ⟨_, rfl⟩
      · exact ⟨_, by rw [hp]; rfl⟩

theorem CWorld.readMap_returns : ∀ (n : Nat) (w : CWorld) (r : CRef) (j : Nat) (o : Option JOpts), w.Ordered →
    (∀ (k : Nat) (c : CacheObj), w.caches[k]? = some c → w.under c.wrapped = some c.under) → r.Fits n →
    w.under r = some j → (∃ p, w.base.emit j (asksColumns o) (asksModule o) = .ok p) →
    (∃ p, w.base.emit j true true = .ok p) → ∃ p, w.readMap n r o = .ok p
  | 0, _, r, _, _, _, _, h, _, _, _ => by cases r <;> simp [CRef.Fits] at h
  | n + 1, w, .obj i, j, o, _, _, _, hu, ⟨p, hp⟩, _ => by
    simp only [CWorld.under, Option.map_eq_some_iff] at hu
    obtain ⟨_, -, rfl⟩ := hu
    exact ⟨_, by simp only [CWorld.readMap, wantsColumns_eq, wantsModule_eq, hp, Except.map]; rfl⟩
  | n + 1, w, .cached k, j, o, O, L, hn, hu, _, h => by
    simp only [CWorld.under, Option.map_eq_some_iff] at hu
    obtain ⟨c, hc, rfl⟩ := hu
    obtain ⟨p, hp⟩ := CWorld.readMap_returns n w c.wrapped _ none O L (O.fits hc hn) (L k c hc) h h
    simp only [CWorld.readMap, hc]
    split
    · exact ⟨_, rfl⟩
    · exact ⟨_, by rw [hp]; rfl⟩

theorem World.both_returns {w : World} {j : Nat} {c m : Bool} (h : ∃ p, w.emit j c m = .ok p) :
    ∃ p, w.both j c m = .ok p := by
  obtain ⟨⟨a, u⟩, h⟩ := h
  simp only [World.both, h, Except.bind]
  simp only [World.emit] at h
  split at h
  · cases h
  · split at h
    · cases h; exact ⟨_, rfl⟩
    · split at h
      · simp only [Except.bind_ok_iff] at h
        obtain ⟨⟨x, w1⟩, h1, h2⟩ := h
        dsimp only at h2
        split at h2
        · cases h2; simp [Emitted.new, Emitted.getSource, Except.map]
        · cases h2
      · simp only [Except.bind_ok_iff] at h
        obtain ⟨⟨x, w1⟩, h1, h2⟩ := h
        dsimp only at h2
        split at h2
        · cases h2; simp [Emitted.new, Emitted.getSource, Except.map]
        · cases h2

theorem CWorld.readBoth_returns : ∀ (n : Nat) (w : CWorld) (r : CRef) (j : Nat) (o : Option JOpts), w.Ordered →
    (∀ (k : Nat) (c : CacheObj), w.caches[k]? = some c → w.under c.wrapped = some c.under) → r.Fits n →
    w.under r = some j → (∃ p, w.base.readSource j = .ok p) →
    (∃ p, w.base.emit j (asksColumns o) (asksModule o) = .ok p) →
    (∃ p, w.base.emit j true true = .ok p) → ∃ p, w.readBoth n r o = .ok p
  | 0, _, r, _, _, _, _, h, _, _, _, _ => by cases r <;> simp [CRef.Fits] at h
  | n + 1, w, .obj i, j, o, _, _, _, hu, _, h, _ => by
    simp only [CWorld.under, Option.map_eq_some_iff] at hu
    obtain ⟨_, -, rfl⟩ := hu
    obtain ⟨p, hp⟩ := World.both_returns h
    exact ⟨_, by simp only [CWorld.readBoth, wantsColumns_eq, wantsModule_eq, hp, Except.map]; rfl⟩
  | n + 1, w, .cached k, j, o, O, L, hn, hu, h0, h1, h2 => by
    simp only [CWorld.under, Option.map_eq_some_iff] at hu
    obtain ⟨c, hc, rfl⟩ := hu
    simp only [CWorld.readBoth, hc]
    split
    · exact ⟨_, rfl⟩
    · obtain ⟨p, hp⟩ := CWorld.readMap_returns n w c.wrapped _ o O L (O.fits hc hn) (L k c hc) h1 h2
      exact ⟨_, by rw [hp]; rfl⟩
    · obtain ⟨p, hp⟩ := CWorld.readSource_returns n w c.wrapped _ O L (O.fits hc hn) (L k c hc) h0
      exact ⟨_, by rw [hp]; rfl⟩
    · obtain ⟨p, hp⟩ := CWorld.readBoth_returns n w c.wrapped _ o O L (O.fits hc hn) (L k c hc) h0 h1 h2
      exact ⟨_, by rw [hp]; rfl⟩

/-- Reads of a `CachedSource` return if those of the object it stands for do; a map is asked for with the
options given or without options. -/
theorem C58_returns (ops : List COp) (w : CWorld) (hp : ∀ op ∈ ops, op.Proper) (e : CWorld.run ops = .ok w)
    (k j : Nat) (hk : (cthings ops).stands[k]? = some j) :
    ((∃ p, w.base.readSource j = .ok p) → ∃ s w', (COp.source k).run w = .ok (.text s, w')) ∧
    ((∃ p, w.base.readSize j = .ok p) → ∃ n w', (COp.size k).run w = .ok (.size n, w')) ∧
    ∀ o, (∃ p, w.base.emit j (asksColumns o) (asksModule o) = .ok p) → (∃ p, w.base.emit j true true = .ok p) →
      (∃ m w', (COp.map k o).run w = .ok (.map m, w')) ∧
      ((∃ p, w.base.readSource j = .ok p) → ∃ s m w', (COp.both k o).run w = .ok (.both s m, w')) := by
  have S := CWorld.run_sound hp e
  have O := CWorld.runFrom_ordered (w := CWorld.empty) (by simp [CWorld.Ordered, CWorld.empty]) e
  rw [← S.stands, List.getElem?_map, Option.map_eq_some_iff] at hk
  obtain ⟨c, hc, rfl⟩ := hk
  have hf : (CRef.cached k).Fits (w.caches.length + 1) := by
    have := (List.getElem?_eq_some_iff.1 hc).1
    simp only [CRef.Fits]; omega
  have hu : w.under (.cached k) = some c.under := by simp [CWorld.under, hc]
  refine ⟨fun h => ?_, fun h => ?_, fun o h1 h2 => ⟨?_, fun h => ?_⟩⟩
  · obtain ⟨⟨s, w'⟩, hp⟩ := CWorld.readSource_returns _ w _ _ O S.linked hf hu h
    exact ⟨s, w', by simp only [COp.run, hp, Except.map]⟩
  · obtain ⟨⟨s, w'⟩, hp⟩ := CWorld.readSize_returns _ w _ _ O S.linked hf hu h
    exact ⟨s, w', by simp only [COp.run, hp, Except.map]⟩
  · obtain ⟨⟨s, w'⟩, hp⟩ := CWorld.readMap_returns _ w _ _ o O S.linked hf hu h1 h2
    exact ⟨s, w', by simp only [COp.run, hp, Except.map]⟩
  · obtain ⟨⟨⟨s, m⟩, w'⟩, hp⟩ := CWorld.readBoth_returns _ w _ _ o O S.linked hf hu h h1 h2
    exact ⟨s, m, w', by simp only [COp.run, hp, Except.map]⟩

/-! ## Cases -/

/-- The same map is handed out for the same options; `map` without options is `map({})`, which is not
`sourceAndMap` without options. -/
example : shownReplies (C58_program ++ [.both 1 none, .map 1 none, .map 1 (some ⟨none, none⟩), .both 1 none,
      .hash 1, .size 1, .size 0]) =
    [.inr (.js .done), .inr (.js .done), .inr (.js .done), .inr (.js .done), .inr (.js .done),
     .inr (.js .done), .inr (.both "x;c\n".toList (some 0)), .inr (.map (some 1)), .inr (.map (some 1)),
     .inr (.both "x;c\n".toList (some 0)), .inr (.js (.chunks ["x;c\n".toList])), .inr (.size 4), .inr (.size 4)] := by
  decide +kernel

/-- Which unit the size is in depends on what was read before. -/
theorem C58_size_units :
    shownReplies [.js (.newRaw "é".toList), .js (.newReplace (.obj 0)), .newCached (.obj 1), .newCached (.obj 1),
      .size 0, .source 1, .size 1] =
    [.inr (.js .done), .inr (.js .done), .inr (.js .done), .inr (.js .done), .inr (.size 2),
      .inr (.text "é".toList), .inr (.size 1)] := by
  decide +kernel

end WS
