import Verif.Proofs.JsClear
import Verif.Props.C54
import Verif.Props.C59
/-!
# C61: after `clear()`

Claim: after `clear()` the library works as if it had just been loaded. What was made before still answers
what it answers without its wasm object, and never anything else than before `clear()`; the rest throws.
-/

namespace WS
open Spec

/-- Objects and emitted pairs of a statement with other numbers. -/
def Spec.JSrc.moved (n : Nat) : JSrc → JSrc
  | .str s => .str s
  | .obj j => .obj (n + j)

def Spec.MapArg.moved (k : Nat) : MapArg → MapArg
  | .emitted i => .emitted (k + i)
  | m => m

def Spec.JOp.moved (n k : Nat) : JOp → JOp
  | .newRaw v => .newRaw v
  | .newOriginal v name => .newOriginal v name
  | .newL2l v name o => .newL2l v name o
  | .newSms v name m o i => .newSms v name (MapArg.moved k m) o (i.map (MapArg.moved k))
  | .newPrefix p c => .newPrefix p (JSrc.moved n c)
  | .newReplace c => .newReplace (JSrc.moved n c)
  | .newConcat cs => .newConcat (cs.map (JSrc.moved n))
  | .add j c => .add (n + j) (JSrc.moved n c)
  | .replace j a b t => .replace (n + j) a b t
  | .insert j a t => .insert (n + j) a t
  | .source j => .source (n + j)
  | .size j => .size (n + j)
  | .sourceAndMap j c m => .sourceAndMap (n + j) c m
  | .hash j => .hash (n + j)
  | .get i f => .get (k + i) f
  | .set i a => .set (k + i) a

/-- A returned pair with another number. -/
def Spec.JAnswer.moved (k : Nat) : JAnswer → JAnswer
  | .pair i => .pair (k + i)
  | a => a

/-- What the statements of a program return, or its exception. -/
def Spec.returns : World → List JOp → Except JErr (List JAnswer)
  | _, [] => .ok []
  | w, op :: ops => (op.run w).bind fun p => (returns p.2 ops).map fun l => p.1 :: l

/-! ## New objects -/

theorem lowerNum_add (n j : Nat) : lowerNum n (n + j) = some j := by
  simp [lowerNum]

theorem JSrc.lower_moved (n : Nat) (c : JSrc) : (JSrc.moved n c).lower n = some c := by
  cases c with
  | str s => rfl
  | obj j => simp only [JSrc.moved, JSrc.lower, lowerNum_add, Option.map]

theorem lower_all (n : Nat) (cs : List JSrc) : (cs.map (JSrc.moved n)).mapM (JSrc.lower n) = some cs := by
  induction cs with
  | nil => rfl
  | cons c cs ih =>
    rw [List.map_cons, List.mapM_cons, ih, JSrc.lower_moved]
    rfl

theorem MapArg.moved_up (k : Nat) (m : MapArg) : Spec.MapArg.moved k m = m.up k := by cases m <;> rfl

theorem JOp.lower_moved (n k : Nat) (op : JOp) : (Spec.JOp.moved n k op).lower n = some (op.up k) := by
  have hm : (Spec.MapArg.moved k) = MapArg.up k := funext (MapArg.moved_up k)
  cases op with
  | newSms v nm m o i => simp only [Spec.JOp.moved, JOp.lower, JOp.up, hm]
  | newConcat cs => simp only [Spec.JOp.moved, JOp.lower, lower_all, Option.map, JOp.up]
  | _ =>
    simp only [Spec.JOp.moved, JOp.lower, JOp.up, lowerNum_add, JSrc.lower_moved, Option.map, Option.bind]

theorem JAnswer.moved_up (k : Nat) (a : JAnswer) : Spec.JAnswer.moved k a = a.up k := by cases a <;> rfl

theorem returns_behind (old : List OldObj) (pre : List Emitted) : ∀ (more : List JOp) (u : World),
    (KWorld.runFrom ⟨old, u.behind pre⟩ (more.map fun op => .js (Spec.JOp.moved old.length pre.length op))).map
        Prod.fst =
      match returns u more with
      | .ok as => .ok (as.map (Spec.JAnswer.moved pre.length))
      | .error e => .error (.js e)
  | [], u => rfl
  | op :: more, u => by
    simp only [List.map_cons, KWorld.runFrom, KOp.run, JOp.lower_moved, JOp.behind_run, returns]
    cases op.run u with
    | error e => rfl
    | ok p =>
      obtain ⟨a, u'⟩ := p
      have ih := returns_behind old pre more u'
      simp only [Except.map, Except.bind]
      generalize KWorld.runFrom ⟨old, u'.behind pre⟩ _ = R at ih ⊢
      cases hr : returns u' more with
      | error e =>
        rw [hr] at ih
        cases R with
        | error e' => simp only [Except.map] at ih ⊢; cases ih; rfl
        | ok q => simp only [Except.map] at ih; cases ih
      | ok l =>
        rw [hr] at ih
        cases R with
        | error e' => simp only [Except.map] at ih; cases ih
        | ok q =>
          simp only [Except.map, Except.ok.injEq] at ih ⊢
          rw [ih, List.map_cons, JAnswer.moved_up]

/-- Statements about objects and pairs made after `clear()` return (or throw) what they would in a new
process. Objects are numbered on from those made before, pairs too. -/
theorem C61_fresh (w : KWorld) (more : List JOp) :
    (w.clear.runFrom (more.map fun op =>
      .js (Spec.JOp.moved (w.old.length + w.base.objs.length) w.base.maps.length op))).map Prod.fst =
    match returns World.empty more with
    | .ok as => .ok (as.map (Spec.JAnswer.moved w.base.maps.length))
    | .error e => .error (.js e) := by
  have len : ∀ n seen os, (oldObjs n seen os).length = os.length := by
    intro n seen os
    induction os generalizing seen with
    | nil => rfl
    | cons o os ih => simp [oldObjs, ih]
  have h := returns_behind w.clear.old (w.base.maps.map fun e => { e with wasm := none }) more World.empty
  rw [show (⟨w.clear.old, World.empty.behind (w.base.maps.map fun e => { e with wasm := none })⟩ : KWorld) =
    w.clear by simp [KWorld.clear, World.behind, World.empty]] at h
  rw [show w.clear.old.length = w.old.length + w.base.objs.length by simp [KWorld.clear, len],
    List.length_map] at h
  exact h

/-! ## Old objects -/

theorem oldObjs_get {n : Nat} : ∀ {os : List JObj} {seen : List Nat} {i : Nat} {o : JObj}, os[i]? = some o →
    ∃ d, (oldObjs n seen os)[i]? = some ⟨o.kind.lift n, d⟩
  | o :: os, seen, 0, _, h => by cases h; exact ⟨_, rfl⟩
  | o :: os, seen, i + 1, _, h => by simpa [oldObjs] using oldObjs_get (n := n) (os := os) (seen := o.ptr :: seen) h

theorem KOp.run_old {w w' : KWorld} {op : KOp} {a : JAnswer} (e : op.run w = .ok (a, w')) :
    ∃ r, w'.old = w.old ++ r := by
  cases op with
  | clear => cases e; exact ⟨_, rfl⟩
  | js op =>
    simp only [KOp.run] at e
    split at e
    · split at e
      · cases e; exact ⟨[], by simp⟩
      · cases e
    · simp only [Except.map_ok_iff] at e
      obtain ⟨x, -, h⟩ := e
      cases h; exact ⟨[], by simp⟩

theorem KWorld.runFrom_old : ∀ {ops : List KOp} {w w' : KWorld} {as : List JAnswer},
    w.runFrom ops = .ok (as, w') → ∃ r, w'.old = w.old ++ r
  | [], w, w', as, e => by cases e; exact ⟨[], by simp⟩
  | op :: ops, w, w', as, e => by
    simp only [KWorld.runFrom, Except.bind_ok_iff, Except.map_ok_iff] at e
    obtain ⟨⟨a, w1⟩, h1, ⟨as', w2⟩, h2, h3⟩ := e
    cases h3
    obtain ⟨r, hr⟩ := KOp.run_old h1
    obtain ⟨r', hr'⟩ := KWorld.runFrom_old h2
    exact ⟨r ++ r', by rw [hr', hr, List.append_assoc]⟩

theorem JKind.lift_value (n : Nat) (k : JKind) : (k.lift n).value = k.value := by cases k <;> rfl

/-- An object, with its number in the program and its own fields. -/
def KWorld.kind (w : KWorld) (j : Nat) : Option JKind :=
  if j < w.old.length then w.old[j]?.map (·.kind) else (w.base.objs[j - w.old.length]?).map fun o =>
    o.kind.lift w.old.length

theorem KWorld.kind_later {w w2 : KWorld} {more : List KOp} {as : List JAnswer}
    (e : w.clear.runFrom more = .ok (as, w2)) {j : Nat} {k : JKind} (h : w.kind j = some k) :
    ∃ d, w2.old[j]? = some ⟨k, d⟩ := by
  obtain ⟨r, hr⟩ := KWorld.runFrom_old e
  have key : ∃ d, w.clear.old[j]? = some ⟨k, d⟩ := by
    simp only [KWorld.kind] at h
    simp only [KWorld.clear]
    split at h
    · rename_i hj
      obtain ⟨o, ho, rfl⟩ := Option.map_eq_some_iff.1 h
      exact ⟨o.dangling, by rw [List.getElem?_append_left hj]; exact ho⟩
    · rename_i hj
      obtain ⟨o, ho, rfl⟩ := Option.map_eq_some_iff.1 h
      rw [List.getElem?_append_right (by omega)]
      exact oldObjs_get ho
  obtain ⟨d, hd⟩ := key
  exact ⟨d, by rw [hr, List.getElem?_append_left (List.getElem?_eq_some_iff.1 hd).1]; exact hd⟩

theorem lowerNum_old {n j : Nat} (h : j < n) : lowerNum n j = none := by
  simp only [lowerNum]; split <;> first | omega | rfl

/-- Leaves go on answering `source()` and `size()`. -/
theorem C61_leaf (w w2 : KWorld) (more : List KOp) (as : List JAnswer) (j : Nat) (k : JKind) (v : Str)
    (hk : w.kind j = some k) (hv : k.value = some v) (e : w.clear.runFrom more = .ok (as, w2)) :
    (KOp.js (.source j)).run w2 = .ok (.text v, w2) ∧ (KOp.js (.size j)).run w2 = .ok (.size (utf16Len v), w2) := by
  obtain ⟨d, hd⟩ := KWorld.kind_later e hk
  have hj := lowerNum_old (List.getElem?_eq_some_iff.1 hd).1
  simp [KOp.run, JOp.lower, hj, KWorld.runOld, hd, hv, Except.map]

/-- The others throw: when they are read, and when maps are asked for. -/
theorem C61_gone (w w2 : KWorld) (more : List KOp) (as : List JAnswer) (j : Nat) (k : JKind)
    (hk : w.kind j = some k) (e : w.clear.runFrom more = .ok (as, w2)) :
    (k.value = none → (KOp.js (.source j)).run w2 = .error (.js .moved) ∧
      (KOp.js (.size j)).run w2 = .error (.js .moved)) ∧
    ((∀ v, k ≠ .raw v) → ∀ c m, (KOp.js (.sourceAndMap j c m)).run w2 = .error (.js .moved)) ∧
    (∀ i, (KOp.js (.add j i)).run w2 = .error (.js .moved)) ∧
    (∀ a b t, (KOp.js (.replace j a b t)).run w2 = .error (.js .moved)) ∧
    ∀ a t, (KOp.js (.insert j a t)).run w2 = .error (.js .moved) := by
  obtain ⟨d, hd⟩ := KWorld.kind_later e hk
  have hlt := (List.getElem?_eq_some_iff.1 hd).1
  have hj := lowerNum_old hlt
  refine ⟨fun hv => ?_, fun hr c m => ?_, fun i => ?_, fun a b t => ?_, fun a t => ?_⟩
  · simp [KOp.run, JOp.lower, hj, KWorld.runOld, hd, hv, Except.map]
  · cases k <;> first | exact absurd rfl (hr _) | simp [KOp.run, JOp.lower, hj, KWorld.runOld, hd, Except.map]
  · simp [KOp.run, JOp.lower, hj, KWorld.runOld, hlt, Except.map]
  · simp [KOp.run, JOp.lower, hj, KWorld.runOld, Except.map]
  · simp [KOp.run, JOp.lower, hj, KWorld.runOld, Except.map]

/-! ## Hashes -/

theorem oldHashEach_same {f g : Nat → Except KErr (List Str)}
    (h : ∀ j l l', f j = .ok l → g j = .ok l' → l = l') : ∀ {cs : List JSrc} {l l' : List Str},
    oldHashEach f cs = .ok l → oldHashEach g cs = .ok l' → l = l'
  | [], _, _, e, e' => by cases e; cases e'; rfl
  | .str s :: cs, _, _, e, e' => by
    simp only [oldHashEach, Except.map_ok_iff] at e e'
    obtain ⟨a, h1, rfl⟩ := e
    obtain ⟨b, h2, rfl⟩ := e'
    rw [oldHashEach_same h h1 h2]
  | .obj j :: cs, _, _, e, e' => by
    simp only [oldHashEach, Except.bind_ok_iff, Except.map_ok_iff] at e e'
    obtain ⟨x, h0, a, h1, rfl⟩ := e
    obtain ⟨y, h0', b, h2, rfl⟩ := e'
    rw [h j x y h0 h0', oldHashEach_same h h1 h2]

theorem oldHash_same {old old' : List OldObj}
    (hold : ∀ (j : Nat) (o : OldObj), old[j]? = some o → ∃ d, old'[j]? = some ⟨o.kind, d⟩) :
    ∀ (n n' j : Nat) (l l' : List Str), oldHash old n j = .ok l → oldHash old' n' j = .ok l' → l = l'
  | 0, _, _, _, _, e, _ => by cases e
  | _, 0, _, _, _, _, e => by cases e
  | n + 1, n' + 1, j, l, l', e, e' => by
    simp only [oldHash] at e e'
    cases ho : old[j]? with
    | none => rw [ho] at e; cases e
    | some o =>
      obtain ⟨d, hd⟩ := hold j o ho
      rw [ho] at e
      rw [hd] at e'
      dsimp only at e e'
      cases hk : o.kind with
      | prefixed p c =>
        rw [hk] at e e'
        simp only [Except.map_ok_iff] at e e'
        obtain ⟨a, h1, rfl⟩ := e
        obtain ⟨b, h2, rfl⟩ := e'
        rw [oldHashEach_same (oldHash_same hold n n') h1 h2]
      | replace c => rw [hk] at e; cases e
      | concat cs =>
        rw [hk] at e e'
        exact oldHashEach_same (oldHash_same hold n n') e e'
      | _ => rw [hk] at e e'; cases e; cases e'; rfl

theorem hashEach_lift {objs : List JObj} {n : Nat} {f : World → Nat → Except JErr (List Str × World)}
    {g : Nat → Except KErr (List Str)}
    (h : ∀ w w' j l l', w.objs = objs → f w j = .ok (l, w') → w'.objs = objs ∧ (g (n + j) = .ok l' → l = l')) :
    ∀ {cs : List JSrc} {w w' : World} {l l' : List Str}, w.objs = objs → World.hashEach f w cs = .ok (l, w') →
    w'.objs = objs ∧ (oldHashEach g (cs.map (JSrc.lift n)) = .ok l' → l = l')
  | [], w, w', l, l', ho, e => by cases e; exact ⟨ho, fun e' => by cases e'; rfl⟩
  | .str s :: cs, w, w', l, l', ho, e => by
    simp only [World.hashEach, Except.map_ok_iff] at e
    obtain ⟨⟨a, w1⟩, h1, h2⟩ := e
    cases h2
    refine ⟨(hashEach_lift (l' := []) h ho h1).1, fun e' => ?_⟩
    simp only [List.map_cons, JSrc.lift, oldHashEach, Except.map_ok_iff] at e'
    obtain ⟨b, h2, rfl⟩ := e'
    rw [(hashEach_lift (l' := b) h ho h1).2 h2]
  | .obj j :: cs, w, w', l, l', ho, e => by
    simp only [World.hashEach, Except.bind_ok_iff, Except.map_ok_iff] at e
    obtain ⟨⟨a, w1⟩, h1, ⟨b, w2⟩, h2, h3⟩ := e
    cases h3
    have ho1 := (h w w1 j a [] ho h1).1
    refine ⟨(hashEach_lift (l' := []) h ho1 h2).1, fun e' => ?_⟩
    simp only [List.map_cons, JSrc.lift, oldHashEach, Except.bind_ok_iff, Except.map_ok_iff] at e'
    obtain ⟨x, h4, y, h5, rfl⟩ := e'
    rw [(h w w1 j a x ho h1).2 h4, (hashEach_lift (l' := y) h ho1 h2).2 h5]

theorem hashObj_lift {objs : List JObj} {n : Nat} {old : List OldObj}
    (hold : ∀ (i : Nat) (o : JObj), objs[i]? = some o → ∃ d, old[n + i]? = some ⟨o.kind.lift n, d⟩) :
    ∀ (m m' : Nat) (w w' : World) (j : Nat) (l l' : List Str), w.objs = objs →
      World.hashObj m w j = .ok (l, w') → w'.objs = objs ∧ (oldHash old m' (n + j) = .ok l' → l = l')
  | 0, _, _, _, _, _, _, _, e => by cases e
  | m + 1, m', w, w', j, l, l', ho, e => by
    have ih := hashObj_lift hold m
    simp only [World.hashObj] at e
    cases hj : w.objs[j]? with
    | none => rw [hj] at e; cases e
    | some o =>
      rw [hj] at e
      dsimp only at e
      obtain ⟨d, hd⟩ := hold j o (ho ▸ hj)
      cases hk : o.kind with
      | prefixed p c =>
        rw [hk] at e
        simp only [Except.map_ok_iff] at e
        obtain ⟨⟨a, w1⟩, h1, h2⟩ := e
        cases h2
        refine ⟨(hashEach_lift (g := oldHash old 0) (l' := []) (fun w w' j l l' => ih 0 w w' j l l') ho h1).1, ?_⟩
        intro e'
        cases m' with
        | zero => cases e'
        | succ m' =>
          simp only [oldHash, hd, hk, JKind.lift, Except.map_ok_iff] at e'
          obtain ⟨b, h2, rfl⟩ := e'
          rw [(hashEach_lift (l' := b) (fun w w' j l l' => ih m' w w' j l l') ho h1).2 h2]
      | replace c =>
        rw [hk] at e
        simp only [Except.map_ok_iff] at e
        obtain ⟨⟨a, w1⟩, h1, h2⟩ := e
        cases h2
        refine ⟨(World.readSource_objs h1).trans ho, fun e' => ?_⟩
        cases m' with
        | zero => cases e'
        | succ m' => simp only [oldHash, hd, hk, JKind.lift] at e'; cases e'
      | concat cs =>
        rw [hk] at e
        refine ⟨(hashEach_lift (g := oldHash old 0) (l' := []) (fun w w' j l l' => ih 0 w w' j l l') ho e).1, ?_⟩
        intro e'
        cases m' with
        | zero => cases e'
        | succ m' =>
          simp only [oldHash, hd, hk, JKind.lift] at e'
          exact (hashEach_lift (l' := l') (fun w w' j l l' => ih m' w w' j l l') ho e).2 e'
      | _ =>
        rw [hk] at e
        cases e
        refine ⟨ho, fun e' => ?_⟩
        cases m' with
        | zero => cases e'
        | succ m' => simp only [oldHash, hd, hk, JKind.lift] at e'; cases e'; rfl

/-! ## Old pairs -/

theorem Unread.throws {w : World} {e e' : Emitted} {f : JField} {v : JFieldVal} (h : e.Unread f)
    (hw : e.wasm = none) (hg : e.get w f = .ok (v, e')) : False := by
  rcases Emitted.get_cases hg with h1 | h1
  · exact Unread.not_keeps h h1
  · cases f with
    | source => obtain ⟨-, wm, h2, -⟩ := h1; rw [hw] at h2; cases h2
    | sources => obtain ⟨-, m, l, ⟨wm, wm', h2, -⟩, -⟩ := h1; rw [hw] at h2; cases h2
    | contents => obtain ⟨-, m, l, ⟨wm, wm', h2, -⟩, -⟩ := h1; rw [hw] at h2; cases h2
    | mappings => obtain ⟨-, m, ⟨wm, wm', h2, -⟩, -⟩ := h1; rw [hw] at h2; cases h2
    | names => obtain ⟨-, -, m, l, ⟨wm, wm', h2, -⟩, -⟩ := h1; rw [hw] at h2; cases h2

theorem Emitted.get_frozen {w : World} {e e' : Emitted} {f : JField} {v : JFieldVal} (hw : e.wasm = none)
    (hg : e.get w f = .ok (v, e')) : e.Keeps f v ∧ e' = e := by
  rcases Emitted.get_cases hg with h1 | h1
  · rw [h1.get w] at hg; cases hg; exact ⟨h1, rfl⟩
  · exfalso
    cases f with
    | source => obtain ⟨-, wm, h2, -⟩ := h1; rw [hw] at h2; cases h2
    | sources => obtain ⟨-, m, l, ⟨wm, wm', h2, -⟩, -⟩ := h1; rw [hw] at h2; cases h2
    | contents => obtain ⟨-, m, l, ⟨wm, wm', h2, -⟩, -⟩ := h1; rw [hw] at h2; cases h2
    | mappings => obtain ⟨-, m, ⟨wm, wm', h2, -⟩, -⟩ := h1; rw [hw] at h2; cases h2
    | names => obtain ⟨-, -, m, l, ⟨wm, wm', h2, -⟩, -⟩ := h1; rw [hw] at h2; cases h2

theorem JOp.lower_same {n : Nat} {op op' : JOp} (h : op.lower n = some op') :
    (∀ k f, op = .get k f → op' = .get k f) ∧ (∀ k a, op' = .set k a → op = .set k a) := by
  cases op with
  | newPrefix p c => obtain ⟨x, -, rfl⟩ := Option.map_eq_some_iff.1 h; exact ⟨nofun, nofun⟩
  | newReplace c => obtain ⟨x, -, rfl⟩ := Option.map_eq_some_iff.1 h; exact ⟨nofun, nofun⟩
  | newConcat cs => obtain ⟨x, -, rfl⟩ := Option.map_eq_some_iff.1 h; exact ⟨nofun, nofun⟩
  | add j c =>
    obtain ⟨x, -, h⟩ := Option.bind_eq_some_iff.1 h
    obtain ⟨y, -, rfl⟩ := Option.map_eq_some_iff.1 h; exact ⟨nofun, nofun⟩
  | replace j a b t => obtain ⟨x, -, rfl⟩ := Option.map_eq_some_iff.1 h; exact ⟨nofun, nofun⟩
  | insert j a t => obtain ⟨x, -, rfl⟩ := Option.map_eq_some_iff.1 h; exact ⟨nofun, nofun⟩
  | source j => obtain ⟨x, -, rfl⟩ := Option.map_eq_some_iff.1 h; exact ⟨nofun, nofun⟩
  | size j => obtain ⟨x, -, rfl⟩ := Option.map_eq_some_iff.1 h; exact ⟨nofun, nofun⟩
  | sourceAndMap j c m => obtain ⟨x, -, rfl⟩ := Option.map_eq_some_iff.1 h; exact ⟨nofun, nofun⟩
  | hash j => obtain ⟨x, -, rfl⟩ := Option.map_eq_some_iff.1 h; exact ⟨nofun, nofun⟩
  | _ => cases h; exact ⟨fun _ _ h => h, fun _ _ h => h⟩

/-- What holds of a pair whether or not it has its wasm object, through a program. -/
theorem Lasting.runClear {P : Emitted → Prop} (L : Lasting fun _ e => P e)
    (hfree : ∀ e, P e → P { e with wasm := none }) {k : Nat} : ∀ {ops : List KOp} {w w' : KWorld}
    {as : List JAnswer} {e : Emitted}, w.base.maps[k]? = some e → P e →
    (∀ a, .js (.set k a) ∈ ops → ∀ e, P e → P (e.set a)) → w.runFrom ops = .ok (as, w') →
    ∃ e', w'.base.maps[k]? = some e' ∧ P e'
  | [], w, w', as, e, hk, hp, _, r => by cases r; exact ⟨e, hk, hp⟩
  | op :: ops, w, w', as, e, hk, hp, hset, r => by
    simp only [KWorld.runFrom, Except.bind_ok_iff, Except.map_ok_iff] at r
    obtain ⟨⟨a, w1⟩, h1, ⟨as', w2⟩, h2, h3⟩ := r
    cases h3
    have step : ∃ e', w1.base.maps[k]? = some e' ∧ P e' := by
      cases op with
      | clear =>
        cases h1
        exact ⟨{ e with wasm := none }, by simp [KWorld.clear, hk], hfree e hp⟩
      | js op =>
        simp only [KOp.run] at h1
        split at h1
        · rename_i op' hop
          split at h1
          · rename_i a' b hb
            cases h1
            exact L.run hk hp (fun _ _ e h => hfree e h)
              (fun x hx _ e h => hset x (by simp [(JOp.lower_same hop).2 k x hx]) e h) hb
          · cases h1
        · simp only [Except.map_ok_iff] at h1
          obtain ⟨x, -, h⟩ := h1
          cases h
          exact ⟨e, hk, hp⟩
    obtain ⟨e1, k1, p1⟩ := step
    exact Lasting.runClear L hfree k1 p1 (fun a ha => hset a (by simp [ha])) h2

theorem KOp.get_run {w w' : KWorld} {k : Nat} {f : JField} {a : JAnswer}
    (r : (KOp.js (.get k f)).run w = .ok (a, w')) : ∃ e e' v, w.base.maps[k]? = some e ∧
      e.get w.base f = .ok (v, e') ∧ a = .field v ∧
      w' = { w with base := { w.base with maps := w.base.maps.set k e' } } := by
  simp only [KOp.run, JOp.lower, JOp.run] at r
  cases h : w.base.maps[k]? with
  | none => rw [h] at r; cases r
  | some e =>
    rw [h] at r
    dsimp only at r
    cases hg : e.get w.base f with
    | error x => rw [hg] at r; cases r
    | ok p => rw [hg] at r; cases r; exact ⟨e, p.2, p.1, rfl, hg, rfl, rfl⟩

/-- A property that was read once reads the same until it is assigned, also after `clear()`. -/
theorem C61_kept (w w1 w2 : KWorld) (more : List KOp) (as : List JAnswer) (k : Nat) (f : JField) (a : JAnswer)
    (r : (KOp.js (.get k f)).run w = .ok (a, w1)) (e : w1.runFrom more = .ok (as, w2))
    (hs : ∀ x, .js (.set k x) ∈ more → x.field ≠ f) : ∃ w3, (KOp.js (.get k f)).run w2 = .ok (a, w3) := by
  obtain ⟨e0, e1, v, hk, hg, rfl, rfl⟩ := KOp.get_run r
  obtain ⟨e2, h3, h4⟩ := (Keeps.lasting f v).runClear (fun _ h => Keeps.move h) (k := k)
    (by simp only; exact List.getElem?_set_self (List.getElem?_eq_some_iff.1 hk).1) (Emitted.get_keeps hg)
    (fun x hx e h => Keeps.set h (hs x hx)) e
  exact ⟨_, by simp only [KOp.run, JOp.lower, JOp.run, h3, h4.get w2.base, Except.map]; rfl⟩

/-! ## Nothing reads differently -/

/-- The statements that read: objects, or the property `f` of the pair `k`, not assigned in `more`. -/
def Spec.JOp.Reading (more : List KOp) : JOp → Prop
  | .source _ | .size _ | .hash _ | .sourceAndMap _ _ _ => True
  | .get k f => ∀ x, .js (.set k x) ∈ more → x.field ≠ f
  | _ => False

theorem kind_of_source {w w' : KWorld} {op : JOp} {a : JAnswer} {j : Nat}
    (hop : op = .source j ∨ op = .size j ∨ op = .hash j ∨ ∃ c m, op = .sourceAndMap j c m)
    (r : (KOp.js op).run w = .ok (a, w')) : ∃ k, w.kind j = some k := by
  by_cases hj : j < w.old.length
  · exact ⟨_, by rw [KWorld.kind, if_pos hj, List.getElem?_eq_getElem hj]; rfl⟩
  · have hl : lowerNum w.old.length j = some (j - w.old.length) := if_pos (by omega)
    cases ho : w.base.objs[j - w.old.length]? with
    | some o => exact ⟨_, by rw [KWorld.kind, if_neg hj, ho]; rfl⟩
    | none =>
      exfalso
      rcases hop with rfl | rfl | rfl | ⟨c, m, rfl⟩ <;>
        simp [KOp.run, JOp.lower, hl, JOp.run, World.readSource, World.readSize, World.emit,
          World.hashObj, ho, Except.map] at r

/-- Whatever an object or a pair answers after `clear()`, it is what it answered before. -/
theorem C61_same (w w1 w2 w3 : KWorld) (more : List KOp) (as : List JAnswer) (op : JOp) (a b : JAnswer)
    (ho : Spec.JOp.Reading more op) (ra : (KOp.js op).run w = .ok (a, w1))
    (e : w.clear.runFrom more = .ok (as, w2)) (rb : (KOp.js op).run w2 = .ok (b, w3)) : a = b := by
  cases op with
  | source j =>
    obtain ⟨k, hk⟩ := kind_of_source (.inl rfl) ra
    obtain ⟨d, hd⟩ := KWorld.kind_later e hk
    have hj2 := lowerNum_old (List.getElem?_eq_some_iff.1 hd).1
    simp only [KOp.run, JOp.lower, hj2, Option.map, KWorld.runOld, hd, Option.bind] at rb
    simp only [KWorld.kind] at hk
    split at hk
    · rename_i hj
      obtain ⟨o, ho, rfl⟩ := Option.map_eq_some_iff.1 hk
      simp only [KOp.run, JOp.lower, lowerNum_old hj, Option.map, KWorld.runOld, ho, Option.bind] at ra
      cases hv : o.kind.value with
      | none => simp [hv, Except.map] at ra
      | some v =>
        simp only [hv, Except.map, Except.ok.injEq, Prod.mk.injEq] at ra rb
        rw [← ra.1, ← rb.1]
    · rename_i hj
      obtain ⟨o, ho, rfl⟩ := Option.map_eq_some_iff.1 hk
      have hl : lowerNum w.old.length j = some (j - w.old.length) := if_pos (by omega)
      rw [JKind.lift_value] at rb
      cases hv : o.kind.value with
      | none => simp [hv, Except.map] at rb
      | some v =>
        simp only [hv, Except.map, Except.ok.injEq, Prod.mk.injEq] at rb
        simp only [KOp.run, JOp.lower, hl, Option.map, JOp.run, World.readSource, ho, hv, Except.map] at ra
        cases ra
        exact rb.1
  | size j =>
    obtain ⟨k, hk⟩ := kind_of_source (.inr (.inl rfl)) ra
    obtain ⟨d, hd⟩ := KWorld.kind_later e hk
    have hj2 := lowerNum_old (List.getElem?_eq_some_iff.1 hd).1
    simp only [KOp.run, JOp.lower, hj2, Option.map, KWorld.runOld, hd, Option.bind] at rb
    simp only [KWorld.kind] at hk
    split at hk
    · rename_i hj
      obtain ⟨o, ho, rfl⟩ := Option.map_eq_some_iff.1 hk
      simp only [KOp.run, JOp.lower, lowerNum_old hj, Option.map, KWorld.runOld, ho, Option.bind] at ra
      cases hv : o.kind.value with
      | none => simp [hv, Except.map] at ra
      | some v =>
        simp only [hv, Except.map, Except.ok.injEq, Prod.mk.injEq] at ra rb
        rw [← ra.1, ← rb.1]
    · rename_i hj
      obtain ⟨o, ho, rfl⟩ := Option.map_eq_some_iff.1 hk
      have hl : lowerNum w.old.length j = some (j - w.old.length) := if_pos (by omega)
      rw [JKind.lift_value] at rb
      cases hv : o.kind.value with
      | none => simp [hv, Except.map] at rb
      | some v =>
        simp only [hv, Except.map, Except.ok.injEq, Prod.mk.injEq] at rb
        simp only [KOp.run, JOp.lower, hl, Option.map, JOp.run, World.readSize, ho, hv, Except.map] at ra
        cases ra
        exact rb.1
  | sourceAndMap j c m =>
    obtain ⟨k, hk⟩ := kind_of_source (.inr (.inr (.inr ⟨c, m, rfl⟩))) ra
    obtain ⟨d, hd⟩ := KWorld.kind_later e hk
    have hj2 := lowerNum_old (List.getElem?_eq_some_iff.1 hd).1
    simp only [KOp.run, JOp.lower, hj2, Option.map, KWorld.runOld, hd] at rb
    cases k with
    | raw v =>
      simp only [Except.map, Except.ok.injEq, Prod.mk.injEq] at rb
      simp only [KWorld.kind] at hk
      split at hk
      · rename_i hj
        obtain ⟨o, ho, hv⟩ := Option.map_eq_some_iff.1 hk
        obtain ⟨k, d'⟩ := o
        subst hv
        simp only [KOp.run, JOp.lower, lowerNum_old hj, Option.map, KWorld.runOld, ho, Except.map,
          Except.ok.injEq, Prod.mk.injEq] at ra
        rw [← ra.1, ← rb.1]
      · rename_i hj
        obtain ⟨o, ho, hv⟩ := Option.map_eq_some_iff.1 hk
        have hl : lowerNum w.old.length j = some (j - w.old.length) := if_pos (by omega)
        have hv : o.kind = .raw v := by
          cases hk : o.kind <;> rw [hk] at hv <;> cases hv
          rfl
        simp only [KOp.run, JOp.lower, hl, Option.map, JOp.run, World.emit, ho, hv] at ra
        cases ra
        exact rb.1
    | _ => simp [Except.map] at rb
  | hash j =>
    obtain ⟨k, hk⟩ := kind_of_source (.inr (.inr (.inl rfl))) ra
    obtain ⟨d, hd⟩ := KWorld.kind_later e hk
    have hj2 := lowerNum_old (List.getElem?_eq_some_iff.1 hd).1
    simp only [KOp.run, JOp.lower, hj2, Option.map, KWorld.runOld, Except.map_ok_iff] at rb
    obtain ⟨x, ⟨l', h1, rfl⟩, hx⟩ := rb
    cases hx
    by_cases hj : j < w.old.length
    · simp only [KOp.run, JOp.lower, lowerNum_old hj, Option.map, KWorld.runOld, Except.map_ok_iff] at ra
      obtain ⟨x, ⟨l, h2, rfl⟩, hx⟩ := ra
      cases hx
      rw [oldHash_same (fun i o hi => ?_) _ _ _ _ _ h2 h1]
      have : w.kind i = some o.kind := by
        rw [KWorld.kind, if_pos (List.getElem?_eq_some_iff.1 hi).1, hi]; rfl
      exact KWorld.kind_later e this
    · have hl : lowerNum w.old.length j = some (j - w.old.length) := if_pos (by omega)
      simp only [KOp.run, JOp.lower, hl, Option.map, JOp.run] at ra
      cases hh : World.hashObj (w.base.objs.length + 1) w.base (j - w.old.length) with
      | error x => rw [hh] at ra; cases ra
      | ok p =>
        rw [hh] at ra
        cases ra
        have := (hashObj_lift (n := w.old.length) (old := w2.old) (fun i o hi => ?_) _
          (w2.old.length + 1) _ _ _ _ l' rfl hh).2
        · rw [show w.old.length + (j - w.old.length) = j by omega] at this
          rw [this h1]
        · refine KWorld.kind_later e ?_
          rw [KWorld.kind, if_neg (by omega), show w.old.length + i - w.old.length = i by omega, hi]
          rfl
  | get k f =>
    obtain ⟨e0, e1, v, hk, hg, rfl, -⟩ := KOp.get_run ra
    obtain ⟨e2, e3, u, hk2, hg2, rfl, -⟩ := KOp.get_run rb
    have hk' : w.clear.base.maps[k]? = some { e0 with wasm := none } := by simp [KWorld.clear, hk]
    have keep : ∃ e', w2.base.maps[k]? = some e' ∧ (e'.wasm = none ∧ (e'.Keeps f v ∨ e'.Unread f)) := by
      refine Lasting.runClear (P := fun e' => e'.wasm = none ∧ (e'.Keeps f v ∨ e'.Unread f))
        ⟨fun _ h => h, fun h hg => ?_⟩ (fun e' h => ?_) hk' ?_ (fun x hx e' h => ?_) e
      · rw [(Emitted.get_frozen h.1 hg).2]; exact h
      · refine ⟨rfl, h.2.imp Keeps.move fun h => ?_⟩
        cases f <;> exact h
      · refine ⟨rfl, ?_⟩
        rcases Emitted.get_cases hg with h1 | h1
        · exact .inl (Keeps.move h1)
        · refine .inr ?_
          cases f with
          | names => exact ⟨h1.1, h1.2.1⟩
          | _ => exact h1.1
      · refine ⟨?_, h.2.imp (fun h => Keeps.set h (ho x hx)) fun h => Unread.set h (ho x hx)⟩
        cases x <;> simp only [Emitted.set] <;> first | exact h.1 | (split <;> exact h.1)
    obtain ⟨e', h1, h2, h3⟩ := keep
    rw [h1] at hk2
    cases hk2
    rcases h3 with h3 | h3
    · rw [h3.get] at hg2; cases hg2; rfl
    · exact (Unread.throws h3 h2 hg2).elim
  | _ => exact ho.elim

end WS
