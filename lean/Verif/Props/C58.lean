import Verif.Proofs.JsCacheTrace
import Verif.Props.C07
/-!
# C58: a CachedSource stands for the object it wraps

Programs with `CachedSource`s around any objects, in any depth, also as parts of other objects.

Proved: all objects have the text they would have with the wrapped objects in the place of the
`CachedSource`s (`C58_objects`); the state of the other classes is always one that a program without
`CachedSource`s reaches (`C58_transfer`), so what is proved for such programs holds here too; a text once
returned is returned forever (`C58_kept`); it is the text of the wrapped object, if that is not edited after
the first text was kept, and `sourceAndMap` is not asked for line-level maps nor used with a `PrefixSource`
(`C58_text_partial`).

False of the code otherwise: `C58_text_not_general` (`sourceAndMap` of the wrapped object may hand out another
text than `source`, C07), and the map kept may have been moved to a `SourceMapSource` in the
meantime (`C58_map_moved`).
-/

namespace WS
open Spec

/-! ## All objects -/

/-- Whatever a program does with `CachedSource`s, the other classes are in a state that a program
without `CachedSource`s reaches, and which describes the same objects. -/
theorem C58_transfer (ops : List COp) (w : CWorld) (hp : ∀ op ∈ ops, op.Proper)
    (e : CWorld.run ops = .ok w) :
    ∃ tr : List JOp, World.run tr = .ok w.base ∧ jthings tr = (cthings ops).things ∧ ∀ op ∈ tr, op.Proper := by
  obtain ⟨tr, h1, h2, h3⟩ := CWorld.run_trace hp e
  exact ⟨tr, h1, by rw [← jthings_loud, h2, cplain_things], h3⟩

/-- `source()` of an object returns the described text, in which `CachedSource`s stand for what they
wrap. -/
theorem C58_objects (ops : List COp) (w : CWorld) (hp : ∀ op ∈ ops, op.Proper)
    (e : CWorld.run ops = .ok w) (j : Nat) (s : Str) :
    (∃ b, w.base.readSource j = .ok (s, b)) ↔ JText (cthings ops).things (.obj j) s := by
  obtain ⟨tr, h1, h2, h3⟩ := C58_transfer ops w hp e
  obtain ⟨A, I⟩ := World.run_inv h3 h1
  rw [← h2]
  exact I.source_iff j s

/-! ## Kept texts -/

/-- `CachedSource` number `k` keeps a text. -/
def CWorld.Has (w : CWorld) (k : Nat) (s : Str) : Prop := ∃ c, w.caches[k]? = some c ∧ c.source = some s

theorem CWorld.Has.update {w : CWorld} {k i : Nat} {s : Str} (h : w.Has k s) {f : CacheObj → CacheObj}
    (hf : k = i → ∀ c, c.source = some s → (f c).source = some s) : (w.update i f).Has k s := by
  obtain ⟨c, h1, h2⟩ := h
  by_cases hk : i = k
  · subst hk
    exact ⟨f c, by simp [CWorld.update, h1], hf rfl c h2⟩
  · exact ⟨c, by simp [CWorld.update, hk, h1], h2⟩

theorem CWorld.Has.ne {w : CWorld} {k i : Nat} {s : Str} (h : w.Has k s) {c : CacheObj}
    (hc : w.caches[i]? = some c) (hn : c.source = none) : k ≠ i := by
  rintro rfl
  obtain ⟨c', h1, h2⟩ := h
  rw [hc] at h1
  cases h1
  rw [hn] at h2; cases h2

theorem CWorld.readSource_has (k : Nat) (s : Str) : ∀ (n : Nat) (w w' : CWorld) (r : CRef) (t : Str),
    w.Has k s → w.readSource n r = .ok (t, w') → w'.Has k s
  | 0, w, w', r, t, _, e => by cases r <;> cases e
  | n + 1, w, w', .obj j, t, H, e => by
    simp only [CWorld.readSource, Except.map_ok_iff] at e
    obtain ⟨_, h1, h2⟩ := e
    cases h2
    exact H
  | n + 1, w, w', .cached i, t, H, e => by
    simp only [CWorld.readSource] at e
    split at e
    · cases e
    · rename_i c hc
      split at e
      · cases e; exact H
      · rename_i hn
        simp only [Except.map_ok_iff] at e
        obtain ⟨⟨t, b⟩, h1, h2⟩ := e
        cases h2
        exact (CWorld.readSource_has k s n _ _ _ _ H h1).update fun h => absurd h (H.ne hc hn)

theorem CWorld.readSize_has (k : Nat) (s : Str) : ∀ (n : Nat) (w w' : CWorld) (r : CRef) (t : Nat),
    w.Has k s → w.readSize n r = .ok (t, w') → w'.Has k s
  | 0, w, w', r, t, _, e => by cases r <;> cases e
  | n + 1, w, w', .obj j, t, H, e => by
    simp only [CWorld.readSize, Except.map_ok_iff] at e
    obtain ⟨_, h1, h2⟩ := e
    cases h2
    exact H
  | n + 1, w, w', .cached i, t, H, e => by
    simp only [CWorld.readSize] at e
    split at e
    · cases e
    · split at e
      · cases e; exact H
      · split at e
        · cases e; exact H.update fun _ c h => h
        · simp only [Except.map_ok_iff] at e
          obtain ⟨⟨t, b⟩, h1, h2⟩ := e
          cases h2
          exact (CWorld.readSize_has k s n _ _ _ _ H h1).update fun _ c h => h

theorem CWorld.readMap_has (k : Nat) (s : Str) : ∀ (n : Nat) (w w' : CWorld) (r : CRef) (o : Option JOpts)
    (t : Option Nat), w.Has k s → w.readMap n r o = .ok (t, w') → w'.Has k s
  | 0, w, w', r, o, t, _, e => by cases r <;> cases e
  | n + 1, w, w', .obj j, o, t, H, e => by
    simp only [CWorld.readMap, Except.map_ok_iff] at e
    obtain ⟨_, h1, h2⟩ := e
    cases h2
    exact H
  | n + 1, w, w', .cached i, o, t, H, e => by
    simp only [CWorld.readMap] at e
    split at e
    · cases e
    · split at e
      · cases e; exact H
      · simp only [Except.map_ok_iff] at e
        obtain ⟨⟨t, b⟩, h1, h2⟩ := e
        cases h2
        exact (CWorld.readMap_has k s n _ _ _ _ _ H h1).update fun _ c h => h

theorem CWorld.readBoth_has (k : Nat) (s : Str) : ∀ (n : Nat) (w w' : CWorld) (r : CRef) (o : Option JOpts)
    (t : Str × Option Nat), w.Has k s → w.readBoth n r o = .ok (t, w') → w'.Has k s
  | 0, w, w', r, o, t, _, e => by cases r <;> cases e
  | n + 1, w, w', .obj j, o, t, H, e => by
    simp only [CWorld.readBoth, Except.map_ok_iff] at e
    obtain ⟨_, h1, h2⟩ := e
    cases h2
    exact H
  | n + 1, w, w', .cached i, o, t, H, e => by
    simp only [CWorld.readBoth] at e
    split at e
    · cases e
    · rename_i c hc
      split at e
      · cases e; exact H
      · simp only [Except.map_ok_iff] at e
        obtain ⟨⟨t, b⟩, h1, h2⟩ := e
        cases h2
        exact (CWorld.readMap_has k s n _ _ _ _ _ H h1).update fun _ c h => h
      · rename_i hn _
        simp only [Except.map_ok_iff] at e
        obtain ⟨⟨t, b⟩, h1, h2⟩ := e
        cases h2
        exact (CWorld.readSource_has k s n _ _ _ _ H h1).update fun h => absurd h (H.ne hc hn)
      · rename_i hn _
        simp only [Except.map_ok_iff] at e
        obtain ⟨⟨t, b⟩, h1, h2⟩ := e
        cases h2
        exact (CWorld.readBoth_has k s n _ _ _ _ _ H h1).update fun h => absurd h (H.ne hc hn)

theorem CWorld.js_caches {w w' : CWorld} {op : JOp} {a : CReply} (e : w.js op = .ok (a, w')) :
    w'.caches = w.caches := by
  simp only [CWorld.js, Except.map_ok_iff] at e
  obtain ⟨_, h1, h2⟩ := e
  cases h2; rfl

theorem CWorld.Has.run {w w' : CWorld} {k : Nat} {s : Str} (H : w.Has k s) {op : COp} {a : CReply}
    (e : op.run w = .ok (a, w')) : w'.Has k s := by
  have js : ∀ {op : JOp}, w.js op = .ok (a, w') → w'.Has k s := fun e => by
    unfold CWorld.Has; rw [CWorld.js_caches e]; exact H
  cases op with
  | js op => exact js e
  | newCached r =>
    simp only [COp.run] at e
    split at e
    · cases e
    · cases e
      obtain ⟨c, h1, h2⟩ := H
      exact ⟨c, getElem?_append_some h1, h2⟩
  | newPrefix p a => simp only [COp.run, Except.bind_ok_iff] at e; obtain ⟨c, h1, h2⟩ := e; exact js h2
  | newReplace a => simp only [COp.run, Except.bind_ok_iff] at e; obtain ⟨c, h1, h2⟩ := e; exact js h2
  | newConcat as => simp only [COp.run, Except.bind_ok_iff] at e; obtain ⟨c, h1, h2⟩ := e; exact js h2
  | add j a => simp only [COp.run, Except.bind_ok_iff] at e; obtain ⟨c, h1, h2⟩ := e; exact js h2
  | source i =>
    simp only [COp.run, Except.map_ok_iff] at e
    obtain ⟨⟨s, u⟩, h1, h2⟩ := e
    cases h2
    exact CWorld.readSource_has k _ _ _ _ _ _ H h1
  | size i =>
    simp only [COp.run, Except.map_ok_iff] at e
    obtain ⟨⟨s, u⟩, h1, h2⟩ := e
    cases h2
    exact CWorld.readSize_has k _ _ _ _ _ _ H h1
  | map i o =>
    simp only [COp.run, Except.map_ok_iff] at e
    obtain ⟨⟨s, u⟩, h1, h2⟩ := e
    cases h2
    exact CWorld.readMap_has k _ _ _ _ _ _ _ H h1
  | both i o =>
    simp only [COp.run, Except.map_ok_iff] at e
    obtain ⟨⟨s, u⟩, h1, h2⟩ := e
    cases h2
    exact CWorld.readBoth_has k _ _ _ _ _ _ _ H h1
  | hash i =>
    simp only [COp.run] at e
    split at e
    · cases e
    · exact js e

theorem CWorld.Has.runFrom {k : Nat} {s : Str} : ∀ {ops : List COp} {w w' : CWorld}, w.Has k s →
    w.runFrom ops = .ok w' → w'.Has k s
  | [], w, w', H, e => by cases e; exact H
  | op :: ops, w, w', H, e => by
    simp only [CWorld.runFrom, Except.bind_ok_iff] at e
    obtain ⟨⟨a, u⟩, h1, h2⟩ := e
    exact (H.run h1).runFrom h2

/-- A read of a text leaves it kept. -/
theorem CWorld.readSource_gives {n : Nat} {w w' : CWorld} {k : Nat} {s : Str}
    (e : w.readSource n (.cached k) = .ok (s, w')) : w'.Has k s := by
  cases n with
  | zero => cases e
  | succ n =>
    simp only [CWorld.readSource] at e
    split at e
    · cases e
    · rename_i c hc
      split at e
      · rename_i hs; cases e; exact ⟨c, hc, hs⟩
      · simp only [Except.map_ok_iff] at e
        obtain ⟨⟨t, b⟩, h1, h2⟩ := e
        cases h2
        obtain ⟨c', h3, -⟩ := (CWorld.readSource_traced n _ _ _ _ h1).1.fixed k c hc
        exact ⟨{ c' with source := some t }, by simp [CWorld.update, h3], rfl⟩

/-- The same of `sourceAndMap`. -/
theorem CWorld.readBoth_gives {n : Nat} {w w' : CWorld} {k : Nat} {s : Str} {o : Option JOpts} {m : Option Nat}
    (e : w.readBoth n (.cached k) o = .ok ((s, m), w')) : w'.Has k s := by
  cases n with
  | zero => cases e
  | succ n =>
    simp only [CWorld.readBoth] at e
    split at e
    · cases e
    · rename_i c hc
      split at e
      · rename_i hs _; cases e; exact ⟨c, hc, hs⟩
      · rename_i hs _
        simp only [Except.map_ok_iff] at e
        obtain ⟨⟨t, b⟩, h1, h2⟩ := e
        cases h2
        exact (CWorld.readMap_has k s n _ _ _ _ _ ⟨c, hc, hs⟩ h1).update fun _ c h => h
      · simp only [Except.map_ok_iff] at e
        obtain ⟨⟨t, b⟩, h1, h2⟩ := e
        cases h2
        obtain ⟨c', h3, -⟩ := (CWorld.readSource_traced n _ _ _ _ h1).1.fixed k c hc
        exact ⟨{ c' with source := some t }, by simp [CWorld.update, h3], rfl⟩
      · simp only [Except.map_ok_iff] at e
        obtain ⟨⟨⟨t, u⟩, b⟩, h1, h2⟩ := e
        cases h2
        obtain ⟨c', h3, -⟩ := (CWorld.readBoth_traced n _ _ _ _ _ h1).1.fixed k c hc
        exact ⟨{ c' with source := some s, maps := (o, m) :: c'.maps }, by simp [CWorld.update, h3], rfl⟩

/-- What a text read of a `CachedSource` returned, every later one returns, whatever the program did in
between, and in whichever way it asks. -/
theorem C58_kept (w w1 w2 : CWorld) (more : List COp) (k : Nat) (s : Str)
    (r : (COp.source k).run w = .ok (.text s, w1) ∨
      ∃ o m, (COp.both k o).run w = .ok (.both s m, w1))
    (e : w1.runFrom more = .ok w2) :
    (COp.source k).run w2 = .ok (.text s, w2) ∧
    ∀ o a w3, (COp.both k o).run w2 = .ok (a, w3) → ∃ m, a = .both s m := by
  have H : w1.Has k s := by
    rcases r with r | ⟨o, m, r⟩
    · simp only [COp.run, Except.map_ok_iff] at r
      obtain ⟨⟨x, u⟩, h1, h2⟩ := r
      cases h2
      exact CWorld.readSource_gives h1
    · simp only [COp.run, Except.map_ok_iff] at r
      obtain ⟨⟨⟨x, y⟩, u⟩, h1, h2⟩ := r
      cases h2
      exact CWorld.readBoth_gives h1
  obtain ⟨c, h1, h2⟩ := H.runFrom e
  refine ⟨by simp [COp.run, CWorld.readSource, h1, h2, Except.map], ?_⟩
  intro o a w3 r3
  simp only [COp.run, Except.map_ok_iff] at r3
  obtain ⟨⟨⟨x, y⟩, u⟩, h3, h4⟩ := r3
  cases h4
  simp only [CWorld.readBoth, h1, h2] at h3
  split at h3
  · rename_i h _; cases h; cases h3; exact ⟨_, rfl⟩
  · rename_i h _
    cases h
    simp only [Except.map_ok_iff] at h3
    obtain ⟨_, -, h5⟩ := h3
    cases h5; exact ⟨_, rfl⟩
  · rename_i h _; cases h
  · rename_i h _; cases h

/-! ## The text of the wrapped object -/

/-- The text of an object, asked for with `source()`, or together with a map with options in `C`. -/
def Told (C : Bool → Prop) (w : World) (j : Nat) (s : Str) : Prop :=
  (∃ w', w.readSource j = .ok (s, w')) ∨ ∃ c m k w', C c ∧ w.both j c m = .ok ((s, k), w')

/-- Every text kept is right. -/
def CWorld.AllKept (w : CWorld) (T : Nat → Str → Prop) : Prop :=
  ∀ (k : Nat) (c : CacheObj) (s : Str), w.caches[k]? = some c → c.source = some s → T c.under s

theorem CWorld.AllKept.update {w : CWorld} {T : Nat → Str → Prop} (h : w.AllKept T) {k : Nat}
    {f : CacheObj → CacheObj} (hf : ∀ c s, w.caches[k]? = some c → (f c).source = some s → T (f c).under s) :
    (w.update k f).AllKept T := by
  intro i c s hc hs
  by_cases hk : k = i
  · subst hk
    cases hw : w.caches[k]? with
    | none => simp [CWorld.update, hw] at hc
    | some c' =>
      simp [CWorld.update, hw] at hc
      subst hc
      exact hf c' s hw hs
  · simp [CWorld.update, hk] at hc
    exact h i c s hc hs

theorem CWorld.readSource_told {C : Bool → Prop} {T : Nat → Str → Prop} : ∀ (n : Nat) (w w' : CWorld)
    (r : CRef) (j : Nat) (s : Str), (∀ j s, Told C w.base j s → T j s) →
    (∀ (k : Nat) (c : CacheObj), w.caches[k]? = some c → w.under c.wrapped = some c.under) →
    w.AllKept T → w.under r = some j → w.readSource n r = .ok (s, w') → T j s ∧ w'.AllKept T
  | 0, w, w', r, j, s, _, _, _, _, e => by cases r <;> cases e
  | n + 1, w, w', .obj i, j, s, hT, _, H, hu, e => by
    simp only [CWorld.readSource, Except.map_ok_iff] at e
    obtain ⟨⟨x, b⟩, h1, h2⟩ := e
    cases h2
    simp only [CWorld.under, Option.map_eq_some_iff] at hu
    obtain ⟨_, -, rfl⟩ := hu
    exact ⟨hT _ _ (.inl ⟨b, h1⟩), H⟩
  | n + 1, w, w', .cached k, j, s, hT, L, H, hu, e => by
    simp only [CWorld.readSource] at e
    split at e
    · cases e
    · rename_i c hc
      simp only [CWorld.under, hc, Option.map_some, Option.some.injEq] at hu
      subst hu
      split at e
      · rename_i hs; cases e; exact ⟨H k c _ hc hs, H⟩
      · simp only [Except.map_ok_iff] at e
        obtain ⟨⟨t, b⟩, h1, h2⟩ := e
        cases h2
        obtain ⟨h3, h4⟩ := CWorld.readSource_told n _ _ _ _ _ hT L H (L k c hc) h1
        refine ⟨h3, h4.update fun c' s hc' hs => ?_⟩
        obtain ⟨c'', h5, h6, -⟩ := (CWorld.readSource_traced n _ _ _ _ h1).1.fixed k c hc
        rw [hc'] at h5
        cases h5
        cases hs
        dsimp only
        rw [h6]; exact h3

theorem CWorld.readSize_told {T : Nat → Str → Prop} : ∀ (n : Nat) (w w' : CWorld)
    (r : CRef) (m : Nat), w.AllKept T → w.readSize n r = .ok (m, w') → w'.AllKept T
  | 0, w, w', r, m, _, e => by cases r <;> cases e
  | n + 1, w, w', .obj i, m, H, e => by
    simp only [CWorld.readSize, Except.map_ok_iff] at e
    obtain ⟨⟨x, b⟩, h1, h2⟩ := e
    cases h2
    exact H
  | n + 1, w, w', .cached k, m, H, e => by
    simp only [CWorld.readSize] at e
    split at e
    · cases e
    · split at e
      · cases e; exact H
      · split at e
        · cases e; exact H.update fun c s hc hs => H k c s hc hs
        · simp only [Except.map_ok_iff] at e
          obtain ⟨⟨t, b⟩, h1, h2⟩ := e
          cases h2
          have := CWorld.readSize_told n _ _ _ _ H h1
          exact this.update fun c s hc hs => this k c s hc hs

theorem CWorld.readMap_told {T : Nat → Str → Prop} : ∀ (n : Nat) (w w' : CWorld)
    (r : CRef) (o : Option JOpts) (m : Option Nat), w.AllKept T → w.readMap n r o = .ok (m, w') →
    w'.AllKept T
  | 0, w, w', r, o, m, _, e => by cases r <;> cases e
  | n + 1, w, w', .obj i, o, m, H, e => by
    simp only [CWorld.readMap, Except.map_ok_iff] at e
    obtain ⟨⟨x, b⟩, h1, h2⟩ := e
    cases h2
    exact H
  | n + 1, w, w', .cached k, o, m, H, e => by
    simp only [CWorld.readMap] at e
    split at e
    · cases e
    · split at e
      · cases e; exact H
      · simp only [Except.map_ok_iff] at e
        obtain ⟨⟨t, b⟩, h1, h2⟩ := e
        cases h2
        have := CWorld.readMap_told n _ _ _ _ _ H h1
        exact this.update fun c s hc hs => this k c s hc hs

theorem CWorld.readBoth_told {C : Bool → Prop} {T : Nat → Str → Prop} : ∀ (n : Nat) (w w' : CWorld)
    (r : CRef) (j : Nat) (o : Option JOpts) (x : Str × Option Nat), C (wantsColumns o) →
    (∀ j s, Told C w.base j s → T j s) →
    (∀ (k : Nat) (c : CacheObj), w.caches[k]? = some c → w.under c.wrapped = some c.under) →
    w.AllKept T → w.under r = some j → w.readBoth n r o = .ok (x, w') → T j x.1 ∧ w'.AllKept T
  | 0, w, w', r, j, o, x, _, _, _, _, _, e => by cases r <;> cases e
  | n + 1, w, w', .obj i, j, o, x, hC, hT, _, H, hu, e => by
    simp only [CWorld.readBoth, Except.map_ok_iff] at e
    obtain ⟨⟨⟨s, m⟩, b⟩, h1, h2⟩ := e
    cases h2
    simp only [CWorld.under, Option.map_eq_some_iff] at hu
    obtain ⟨_, -, rfl⟩ := hu
    exact ⟨hT _ _ (.inr ⟨_, _, m, b, hC, h1⟩), H⟩
  | n + 1, w, w', .cached k, j, o, x, hC, hT, L, H, hu, e => by
    simp only [CWorld.readBoth] at e
    split at e
    · cases e
    · rename_i c hc
      simp only [CWorld.under, hc, Option.map_some, Option.some.injEq] at hu
      subst hu
      split at e
      · rename_i hs _; cases e; exact ⟨H k c _ hc hs, H⟩
      · rename_i hs _
        simp only [Except.map_ok_iff] at e
        obtain ⟨⟨t, b⟩, h1, h2⟩ := e
        cases h2
        have := CWorld.readMap_told n _ _ _ _ _ H h1
        exact ⟨H k c _ hc hs, this.update fun c s hc hs => this k c s hc hs⟩
      · simp only [Except.map_ok_iff] at e
        obtain ⟨⟨t, b⟩, h1, h2⟩ := e
        cases h2
        obtain ⟨h3, h4⟩ := CWorld.readSource_told n _ _ _ _ _ hT L H (L k c hc) h1
        refine ⟨h3, h4.update fun c' s hc' hs => ?_⟩
        obtain ⟨c'', h5, h6, -⟩ := (CWorld.readSource_traced n _ _ _ _ h1).1.fixed k c hc
        rw [hc'] at h5
        cases h5
        cases hs
        dsimp only
        rw [h6]; exact h3
      · simp only [Except.map_ok_iff] at e
        obtain ⟨⟨⟨t, m⟩, b⟩, h1, h2⟩ := e
        cases h2
        obtain ⟨h3, h4⟩ := CWorld.readBoth_told n _ _ _ _ _ _ hC hT L H (L k c hc) h1
        refine ⟨h3, h4.update fun c' s hc' hs => ?_⟩
        obtain ⟨c'', h5, h6, -⟩ := (CWorld.readBoth_traced n _ _ _ _ _ h1).1.fixed k c hc
        rw [hc'] at h5
        cases h5
        cases hs
        dsimp only
        rw [h6]; exact h3

/-- Texts are asked for together with maps only with options in `C`. -/
def COp.Asks (C : Bool → Prop) : COp → Prop
  | .both _ o => C (wantsColumns o)
  | _ => True

/-- The text a statement returns is one kept for number `k`. -/
def COp.textOf : COp → CReply → Option (Nat × Str)
  | .source k, .text s => some (k, s)
  | .both k _, .both s _ => some (k, s)
  | _, _ => none

theorem COp.run_told {C : Bool → Prop} {T : Nat → Str → Prop} {w w' : CWorld} {t : CThings} (S : w.Sound t)
    (hT : ∀ j s, Told C w.base j s → T j s) (H : w.AllKept T) {op : COp} (ha : op.Asks C) {a : CReply}
    (e : op.run w = .ok (a, w')) :
    w'.AllKept T ∧ ∀ k s, op.textOf a = some (k, s) → ∃ j, t.stands[k]? = some j ∧ T j s := by
  have js : ∀ {op : JOp}, w.js op = .ok (a, w') → w'.AllKept T := fun e => by
    unfold CWorld.AllKept; rw [CWorld.js_caches e]; exact H
  have stand : ∀ {k : Nat} {x : Str ⊕ CWorld} (u : CWorld), (∃ c, w.caches[k]? = some c) →
      ∃ j, w.under (.cached k) = some j ∧ t.stands[k]? = some j := by
    rintro k x u ⟨c, hc⟩
    exact ⟨c.under, by simp [CWorld.under, hc], by rw [← S.stands]; simp [hc]⟩
  cases op with
  | js op => exact ⟨js e, fun k s h => by cases h⟩
  | newCached r =>
    refine ⟨?_, fun k s h => by cases h⟩
    simp only [COp.run] at e
    split at e
    · cases e
    · cases e
      intro k c s hc hs
      simp only [List.getElem?_append] at hc
      split at hc
      · exact H k c s hc hs
      · simp only [List.getElem?_singleton] at hc
        split at hc
        · cases hc; cases hs
        · cases hc
  | newPrefix p a =>
    simp only [COp.run, Except.bind_ok_iff] at e; obtain ⟨c, h1, h2⟩ := e
    exact ⟨js h2, fun k s h => by cases h⟩
  | newReplace a =>
    simp only [COp.run, Except.bind_ok_iff] at e; obtain ⟨c, h1, h2⟩ := e
    exact ⟨js h2, fun k s h => by cases h⟩
  | newConcat as =>
    simp only [COp.run, Except.bind_ok_iff] at e; obtain ⟨c, h1, h2⟩ := e
    exact ⟨js h2, fun k s h => by cases h⟩
  | add j a =>
    simp only [COp.run, Except.bind_ok_iff] at e; obtain ⟨c, h1, h2⟩ := e
    exact ⟨js h2, fun k s h => by cases h⟩
  | source i =>
    simp only [COp.run, Except.map_ok_iff] at e
    obtain ⟨⟨s, u⟩, h1, h2⟩ := e
    cases h2
    have hc : ∃ c, w.caches[i]? = some c := by
      cases hc : w.caches[i]? with
      | none => simp only [CWorld.readSource, hc] at h1; cases h1
      | some c => exact ⟨c, rfl⟩
    obtain ⟨c, hc⟩ := hc
    obtain ⟨h3, h4⟩ := CWorld.readSource_told _ _ _ _ _ _ hT S.linked H
      (show w.under (.cached i) = some c.under by simp [CWorld.under, hc]) h1
    refine ⟨h4, fun k s' h => ?_⟩
    cases h
    exact ⟨c.under, by rw [← S.stands]; simp [hc], h3⟩
  | size i =>
    simp only [COp.run, Except.map_ok_iff] at e
    obtain ⟨⟨s, u⟩, h1, h2⟩ := e
    cases h2
    exact ⟨CWorld.readSize_told _ _ _ _ _ H h1, fun k s h => by cases h⟩
  | map i o =>
    simp only [COp.run, Except.map_ok_iff] at e
    obtain ⟨⟨s, u⟩, h1, h2⟩ := e
    cases h2
    exact ⟨CWorld.readMap_told _ _ _ _ _ _ H h1, fun k s h => by cases h⟩
  | both i o =>
    simp only [COp.run, Except.map_ok_iff] at e
    obtain ⟨⟨⟨s, m⟩, u⟩, h1, h2⟩ := e
    cases h2
    have hc : ∃ c, w.caches[i]? = some c := by
      cases hc : w.caches[i]? with
      | none => simp only [CWorld.readBoth, hc] at h1; cases h1
      | some c => exact ⟨c, rfl⟩
    obtain ⟨c, hc⟩ := hc
    obtain ⟨h3, h4⟩ := CWorld.readBoth_told _ _ _ _ _ _ _ ha hT S.linked H
      (show w.under (.cached i) = some c.under by simp [CWorld.under, hc]) h1
    refine ⟨h4, fun k s' h => ?_⟩
    cases h
    exact ⟨c.under, by rw [← S.stands]; simp [hc], h3⟩
  | hash i =>
    simp only [COp.run] at e
    split at e
    · cases e
    · exact ⟨js e, fun k s h => by cases h⟩

theorem CWorld.runFrom_told {C : Bool → Prop} {T : Nat → Str → Prop} : ∀ {ops : List COp} {w w' : CWorld}
    {t : CThings}, w.Sound t → (∀ op ∈ ops, op.Proper) → (∀ op ∈ ops, op.Asks C) → w.AllKept T →
    (∀ a b u, ops = a ++ b → w.runFrom a = .ok u → ∀ j s, Told C u.base j s → T j s) →
    w.runFrom ops = .ok w' → w'.AllKept T
  | [], w, w', t, _, _, _, H, _, e => by cases e; exact H
  | op :: ops, w, w', t, S, hp, ha, H, hT, e => by
    simp only [CWorld.runFrom, Except.bind_ok_iff] at e
    obtain ⟨⟨x, u⟩, h1, h2⟩ := e
    have h3 := (COp.run_told S (hT [] _ w rfl rfl) H (ha op (by simp)) h1).1
    refine CWorld.runFrom_told (COp.run_sound S (hp op (by simp)) h1) (fun o h => hp o (by simp [h]))
      (fun o h => ha o (by simp [h])) h3 ?_ h2
    intro a b v hab hv
    refine hT (op :: a) b v (by simp [hab]) ?_
    simp only [CWorld.runFrom, Except.bind_ok_iff]
    exact ⟨_, h1, hv⟩

/-! ## Statements that change no object there is -/

theorem _root_.WS.Spec.JText.grow {st : List JThing} (r : List JThing) {src : JSrc} {s : Str}
    (h : JText st src s) : JText (st ++ r) src s := by
  induction h with
  | str s => exact .str s
  | leaf hx => exact .leaf (getElem?_append_some hx)
  | prefixed hx _ ih => exact .prefixed (getElem?_append_some hx) ih
  | replaced hx _ ho ih => exact .replaced (getElem?_append_some hx) ih ho
  | joined hx hl _ ih => exact .joined (getElem?_append_some hx) hl ih

theorem addTo_last (st : List JThing) (i : JSrc) : ∀ (x : JThing), ∃ y, addTo (st ++ [x]) st.length i = st ++ [y] := by
  intro x
  unfold addTo
  split
  · rename_i items _
    exact ⟨.joined (items ++ flat (st ++ [x]) i), by simp⟩
  · exact ⟨x, rfl⟩

theorem addTo_lasts (st : List JThing) : ∀ (is : List JSrc) (x : JThing),
    ∃ y, is.foldl (fun s i => addTo s st.length i) (st ++ [x]) = st ++ [y]
  | [], x => ⟨x, rfl⟩
  | i :: is, x => by
    obtain ⟨y, hy⟩ := addTo_last st i x
    rw [List.foldl_cons, hy]
    exact addTo_lasts st is y

theorem cstep_grows (t : CThings) {op : COp} (h : ¬ op.Edits) :
    ∃ r, (cstep t op).things = t.things ++ r := by
  have same : ∀ l : List JThing, ∃ r, l = l ++ r := fun l => ⟨[], by simp⟩
  cases op with
  | js op =>
    cases op with
    | newConcat items =>
      obtain ⟨y, hy⟩ := addTo_lasts t.things items (.joined [])
      exact ⟨[y], hy⟩
    | add => exact absurd trivial h
    | replace => exact absurd trivial h
    | insert => exact absurd trivial h
    | _ => first | exact ⟨_, rfl⟩ | exact same _
  | newConcat as =>
    obtain ⟨y, hy⟩ := addTo_lasts t.things (as.map t.arg) (.joined [])
    exact ⟨[y], hy⟩
  | add => exact absurd trivial h
  | _ => first | exact ⟨_, rfl⟩ | exact same _

theorem csteps_grow : ∀ (ops : List COp) (t : CThings), (∀ op ∈ ops, ¬ op.Edits) →
    ∃ r, (ops.foldl cstep t).things = t.things ++ r
  | [], t, _ => ⟨[], by simp⟩
  | op :: ops, t, h => by
    obtain ⟨r, hr⟩ := cstep_grows t (h op (by simp))
    obtain ⟨r', hr'⟩ := csteps_grow ops (cstep t op) fun o ho => h o (by simp [ho])
    exact ⟨r ++ r', by rw [List.foldl_cons, hr', hr, List.append_assoc]⟩

theorem CWorld.run_append {a b : List COp} {u w : CWorld} (h : CWorld.run a = .ok u)
    (h' : u.runFrom b = .ok w) : CWorld.run (a ++ b) = .ok w := by
  have : ∀ (a : List COp) (v : CWorld), v.runFrom a = .ok u → v.runFrom (a ++ b) = .ok w := by
    intro a
    induction a with
    | nil => intro v h; cases h; exact h'
    | cons op a ih =>
      intro v h
      simp only [CWorld.runFrom, List.cons_append, Except.bind_ok_iff] at h ⊢
      obtain ⟨p, h1, h2⟩ := h
      exact ⟨p, h1, ih _ h2⟩
  exact this a _ h

/-! ## The text that comes with a map -/

theorem Seen.prefixFit_none {A : AHeap} {objs : List JObj} {st : List JThing} (I : SimAll A objs st)
    (hn : ∀ x ∈ st, ∀ p c, x ≠ .prefixed p c) (cols mod : Bool) {src : Src} {t : Tree} (hs : Seen A src t) :
    (∃ c, tr (objs.map JObj.ptr) c = some src) → t.PrefixFit cols mod := by
  have thing : ∀ {i : Nat}, (∃ c, tr (objs.map JObj.ptr) c = some (.ref i)) →
      ∃ k x, x ∈ st ∧ SimThing A (objs.map JObj.ptr) i k x := by
    rintro i ⟨c, hc⟩
    cases c with
    | str s => cases hc
    | obj j =>
      obtain ⟨o, ho, rfl⟩ := tr_obj_inv hc
      obtain ⟨x, hx, sim⟩ := I.get' ho
      exact ⟨_, x, List.mem_of_getElem? hx, sim⟩
  induction hs with
  | @prefixed i p c t e _ ih =>
    intro hc
    obtain ⟨k, x, hx, sim⟩ := thing hc
    cases sim with
    | leaf _ hA hl => rw [e] at hA; cases hA; cases hl
    | prefixed hA => exact absurd rfl (hn _ hx _ _)
    | replaced hA => rw [e] at hA; cases hA
    | joined hA => rw [e] at hA; cases hA
  | @replace i c cs t e _ ih =>
    intro hc
    rw [Tree.PrefixFit]
    obtain ⟨k, x, hx, sim⟩ := thing hc
    cases sim with
    | leaf _ hA hl => rw [e] at hA; cases hA; cases hl
    | prefixed hA => rw [e] at hA; cases hA
    | replaced hA ht => rw [e] at hA; cases hA; exact ih ⟨_, ht⟩
    | joined hA => rw [e] at hA; cases hA
  | @concat i cs ts e hl _ ih =>
    intro hc
    rw [Tree.PrefixFit]
    obtain ⟨k, x, hx, sim⟩ := thing hc
    have hcs : ∀ c ∈ cs, ∃ c', tr (objs.map JObj.ptr) c' = some c := by
      cases sim with
      | leaf _ hA hl => rw [e] at hA; cases hA; cases hl
      | prefixed hA => rw [e] at hA; cases hA
      | replaced hA => rw [e] at hA; cases hA
      | joined hA hm =>
        rw [e] at hA
        cases hA
        intro c hc
        have : some c ∈ cs.map some := List.mem_map.2 ⟨c, hc, rfl⟩
        rw [← hm] at this
        obtain ⟨c', -, h⟩ := List.mem_map.1 this
        exact ⟨c', h⟩
    clear e sim hx hc
    have : ∀ (cs : List Src) (ts : List Tree), ts.length = cs.length →
        (∀ c ∈ cs, ∃ c', tr (objs.map JObj.ptr) c' = some c) →
        (∀ (k : Nat) (c : Src) (t : Tree), cs[k]? = some c → ts[k]? = some t →
          (∃ c', tr (objs.map JObj.ptr) c' = some c) → t.PrefixFit cols mod) →
        Tree.PrefixFits cols mod ts := by
      intro cs ts
      induction ts generalizing cs with
      | nil => intro _ _ _; trivial
      | cons t ts ih2 =>
        intro hl hcs ih
        cases cs with
        | nil => simp at hl
        | cons c cs =>
          exact ⟨ih 0 c t rfl rfl (hcs c (by simp)), ih2 cs (by simpa using hl)
            (fun c h => hcs c (by simp [h])) (fun k c t hc ht => ih (k + 1) c t hc ht)⟩
    exact this cs ts hl hcs ih
  | _ => intro _; trivial

/-- Without `PrefixSource`s the text that comes with a column-level map is what `source()` returns. -/
theorem World.Inv.both_text {w w' : World} {A : AHeap} {st : List JThing} (I : w.Inv A st)
    (hn : ∀ x ∈ st, ∀ p c, x ≠ .prefixed p c) {j : Nat} {m : Bool} {s : Str} {k : Option Nat}
    (e : w.both j true m = .ok ((s, k), w')) : JText st (.obj j) s := by
  simp only [World.both, Except.bind_ok_iff] at e
  obtain ⟨⟨a, u⟩, h1, h2⟩ := e
  simp only [World.emit] at h1
  split at h1
  · cases h1
  · rename_i o ho
    split at h1
    · rename_i v hk
      cases h1
      cases h2
      exact (I.source_iff j s).1 ⟨w, by simp [World.readSource, ho, hk, JKind.value]⟩
    · simp only [if_true, Except.bind_ok_iff] at h1
      obtain ⟨⟨ans, w1⟩, h3, h4⟩ := h1
      obtain ⟨h, hr, rfl⟩ := World.call_ok h3
      dsimp only at h4
      split at h4
      · rename_i n
        cases h4
        simp only [Op.run, Except.map_ok_iff] at hr
        obtain ⟨⟨n', h'⟩, h5, h6⟩ := hr
        cases h6
        obtain ⟨t, hs, ht⟩ := hNode_seen A true m _ _ _ _ _ _ I.abs h5
        have hf := hs.prefixFit_none I.sim hn true m ⟨.obj j, tr_obj ho⟩
        obtain ⟨_, htx⟩ := Tree.node_text true m t n' hf ht
        obtain ⟨t', hu, ht'⟩ := hs.text
        have hj := JText.of_unfolds I.sim hu _ (tr_obj ho)
        have : s = t'.text := by
          simp [Emitted.new, Emitted.getSource, Except.map] at h2
          obtain ⟨⟨h7, -⟩, -⟩ := h2
          rw [ht', ← htx, ← h7]
          simp [SmNode.toStringWithGenerator, SmNode.walk_code, WalkCtx.new]
        rw [this]; exact hj
      · cases h4

/-- The text a `CachedSource` returns is the text of the object it stands for. The object is not edited
after the moment `a` before which no text was kept, and texts are asked for together with maps only
column by column and without `PrefixSource`s. Missing: `C58_text_not_general`. -/
theorem C58_text_partial (a b : List COp) (u w w' : CWorld) (op : COp) (x : CReply) (k : Nat) (s : Str)
    (hp : ∀ o ∈ a ++ b, o.Proper) (ea : CWorld.run a = .ok u) (hu : ∀ c ∈ u.caches, c.source = none)
    (eb : u.runFrom b = .ok w) (hb : ∀ o ∈ b, ¬ o.Edits)
    (ho : (∀ o ∈ op :: b, o.Asks fun _ => False) ∨ ((∀ o ∈ op :: b, o.Asks (· = true)) ∧
      ∀ y ∈ (cthings (a ++ b)).things, ∀ p c, y ≠ .prefixed p c))
    (r : op.run w = .ok (x, w')) (ht : op.textOf x = some (k, s)) :
    ∃ j, (cthings (a ++ b)).stands[k]? = some j ∧ JText (cthings (a ++ b)).things (.obj j) s := by
  have Su := CWorld.run_sound (fun o h => hp o (List.mem_append_left _ h)) ea
  have main : ∀ C : Bool → Prop, (∀ o ∈ op :: b, o.Asks C) → (∀ b1 b2 v, b = b1 ++ b2 →
      u.runFrom b1 = .ok v → ∀ j s, Told C v.base j s → JText (cthings (a ++ b)).things (.obj j) s) →
      ∃ j, (cthings (a ++ b)).stands[k]? = some j ∧ JText (cthings (a ++ b)).things (.obj j) s := by
    intro C hC hT
    have H := CWorld.runFrom_told (T := fun j s => JText (cthings (a ++ b)).things (.obj j) s) Su
      (fun o h => hp o (List.mem_append_right _ h)) (fun o h => hC o (by simp [h]))
      (fun k c s hc hs => by rw [hu c (List.mem_of_getElem? hc)] at hs; cases hs) hT eb
    exact (COp.run_told (CWorld.run_sound hp (CWorld.run_append ea eb)) (hT b [] w (by simp) eb) H
      (hC op (by simp)) r).2 k s ht
  have moment : ∀ b1 b2 v, b = b1 ++ b2 → u.runFrom b1 = .ok v → ∃ A, v.base.Inv A (cthings (a ++ b1)).things ∧
      ∃ r, (cthings (a ++ b)).things = (cthings (a ++ b1)).things ++ r := by
    intro b1 b2 v hb12 hv
    subst hb12
    obtain ⟨tr, h1, h2, h3⟩ := C58_transfer (a ++ b1) v (fun o h => hp o (by
      rcases List.mem_append.1 h with h | h <;> simp [h])) (CWorld.run_append ea hv)
    obtain ⟨A, I⟩ := World.run_inv h3 h1
    rw [h2] at I
    refine ⟨A, I, ?_⟩
    rw [← List.append_assoc]
    unfold cthings
    rw [List.foldl_append (l' := b2)]
    exact csteps_grow b2 _ fun o ho => hb o (by simp [ho])
  rcases ho with ho | ⟨ho, hn⟩
  · refine main _ ho fun b1 b2 v hb12 hv j s hs => ?_
    obtain ⟨A, I, r, hr⟩ := moment b1 b2 v hb12 hv
    rcases hs with h | ⟨_, _, _, _, h, _⟩
    · rw [hr]; exact ((I.source_iff j s).1 h).grow r
    · exact h.elim
  · refine main _ ho fun b1 b2 v hb12 hv j s hs => ?_
    obtain ⟨A, I, r, hr⟩ := moment b1 b2 v hb12 hv
    rcases hs with h | ⟨c, m, i, v', rfl, h⟩
    · rw [hr]; exact ((I.source_iff j s).1 h).grow r
    · rw [hr]
      refine (I.both_text (fun x hx => hn x ?_) h).grow r
      rw [hr]; exact List.mem_append_left _ hx

/-! ## Cases -/

/-- What the statements return, up to the first that throws. -/
def replies : CWorld → List COp → List (Except JErr CReply)
  | _, [] => []
  | w, op :: ops => match op.run w with
    | .error e => [.error e]
    | .ok (a, w') => .ok a :: replies w' ops

/-- A failing or a returning statement, for comparison. -/
def shownReply : Except JErr CReply → JErr ⊕ CReply
  | .error e => .inl e
  | .ok a => .inr a

/-- Replies for comparison. -/
def shownReplies (ops : List COp) : List (JErr ⊕ CReply) := (replies CWorld.empty ops).map shownReply

/-- `sourceAndMap` of a `CachedSource` around a `PrefixSource` over empty text keeps `""`, which
`source()` then returns; the wrapped object's `source()` returns `"> "`. -/
theorem C58_text_not_general :
    shownReplies [.js (.newRaw []), .js (.newPrefix "> ".toList (.obj 0)), .newCached (.obj 1), .both 0 none,
      .source 0, .js (.source 1)] =
    [.inr (.js .done), .inr (.js .done), .inr (.js .done), .inr (.both [] (some 0)), .inr (.text []),
      .inr (.js (.text "> ".toList))] := by
  decide +kernel

/-- After an edit of the wrapped object the text kept is returned still. -/
theorem C58_text_stale :
    shownReplies [.js (.newRaw "ab".toList), .js (.newReplace (.obj 0)), .newCached (.obj 1), .source 0,
      .js (.insert 1 1 "X".toList), .source 0, .js (.source 1)] =
    [.inr (.js .done), .inr (.js .done), .inr (.js .done), .inr (.text "ab".toList), .inr (.js .done),
      .inr (.text "ab".toList), .inr (.js (.text "aXb".toList))] := by
  decide +kernel

/-- A kept map given to a `SourceMapSource` is gone: `sourceAndMap` hands it out again, and reading it
throws. -/
theorem C58_map_moved :
    shownReplies [.js (.newOriginal "a;b".toList "f".toList), .newCached (.obj 0), .both 0 none,
      .js (.newSms "a;b".toList "f".toList (.emitted 0) none none), .both 0 none,
      .js (.get 0 .mappings)] =
    [.inr (.js .done), .inr (.js .done), .inr (.both "a;b".toList (some 0)), .inr (.js .done),
      .inr (.both "a;b".toList (some 0)), .inl .moved] := by
  decide +kernel

/-- A program: a `CachedSource` around a `CachedSource` around an edited original, also a part of a
`ConcatSource`. -/
def C58_program : List COp :=
  [.js (.newOriginal "ab;c\n".toList "f".toList), .js (.newReplace (.obj 0)), .js (.replace 1 0 1 "x".toList),
   .newCached (.obj 1), .newCached (.cached 0), .newConcat [.ref (.cached 1), .str "end".toList]]

/-- Then: reads of all kinds. -/
def C58_reads : List COp :=
  [.both 1 none, .js (.source 2), .newCached (.obj 2), .size 2, .both 2 (some ⟨some true, some false⟩)]

example : shownReplies (C58_program ++ C58_reads ++ [.source 2]) =
    [.inr (.js .done), .inr (.js .done), .inr (.js .done), .inr (.js .done), .inr (.js .done),
     .inr (.js .done), .inr (.both "x;c\n".toList (some 0)), .inr (.js (.text "x;c\nend".toList)),
     .inr (.js .done), .inr (.size 7), .inr (.both "x;c\nend".toList (some 1)),
     .inr (.text "x;c\nend".toList)] := by
  decide +kernel

/-- The conditions of `C58_text_partial` hold of it. -/
example : (∀ o ∈ C58_program ++ C58_reads, o.Proper) ∧ (∀ o ∈ C58_reads, ¬ o.Edits) ∧
    (∀ o ∈ COp.source 2 :: C58_reads, o.Asks (· = true)) ∧
    (∃ u, CWorld.run C58_program = .ok u ∧ ∀ c ∈ u.caches, c.source = none) ∧
    (cthings (C58_program ++ C58_reads)).stands = [1, 1, 2] ∧
    ∀ y ∈ (cthings (C58_program ++ C58_reads)).things, ∀ p c, y ≠ .prefixed p c := by
  refine ⟨?_, ?_, ?_, ⟨_, rfl, ?_⟩, by decide +kernel, ?_⟩
  · simp only [C58_program, C58_reads, List.cons_append, List.nil_append, List.forall_mem_cons, COp.Proper,
      JOp.Proper, Spec.Proper, true_and, List.not_mem_nil, false_implies, implies_true, and_true]
    decide +kernel
  · simp [C58_reads, COp.Edits]
  · simp [C58_reads, COp.Asks, wantsColumns]
  · decide +kernel
  · have : (cthings (C58_program ++ C58_reads)).things.all (fun y => match y with
      | .prefixed .. => false | _ => true) = true := by decide +kernel
    intro y hy p c he
    have := List.all_eq_true.1 this y hy
    rw [he] at this
    cases this

end WS
