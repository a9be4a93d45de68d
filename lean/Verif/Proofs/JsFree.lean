import Verif.Proofs.JsHeld
import Verif.Proofs.JsLabel
import Verif.Model.JsFree
/-! # Statements of programs with `free()` and without -/

namespace WS
open Spec

/-- The same result; or one of the errors. -/
def FRel (B : KErr → Prop) {α β : Type} (k : α → β) (x : Except KErr β) (y : Except JErr α) : Prop :=
  x = (liftErr y).map k ∨ ∃ e : KErr, x = .error e ∧ B e

variable {B : KErr → Prop}

theorem FRel.bind {α β γ δ : Type} {k : α → β} {k' : γ → δ} {x : Except KErr β} {y : Except JErr α}
    {f : β → Except KErr δ} {g : α → Except JErr γ} (h : FRel B k x y)
    (hf : ∀ a, y = .ok a → FRel B k' (f (k a)) (g a)) : FRel B k' (x.bind f) (y.bind g) := by
  rcases h with rfl | ⟨e, rfl, he⟩
  · cases y with
    | error e => exact .inl rfl
    | ok a => exact hf a rfl
  · exact .inr ⟨e, rfl, he⟩

theorem FRel.map {α β γ δ : Type} {k : α → β} {k' : γ → δ} {x : Except KErr β} {y : Except JErr α}
    {f : β → δ} {g : α → γ} (h : FRel B k x y) (hf : ∀ a, f (k a) = k' (g a)) :
    FRel B k' (x.map f) (y.map g) := by
  rcases h with rfl | ⟨e, rfl, he⟩
  · refine .inl ?_
    cases y with
    | error e => rfl
    | ok a => exact congrArg Except.ok (hf a)
  · exact .inr ⟨e, rfl, he⟩

theorem FRel.lift {α β : Type} {k : α → β} {y : Except JErr α} : FRel B k ((liftErr y).map k) y := .inl rfl

/-- What is looked at before succeeds, or is one of the errors. -/
def Guard (B : KErr → Prop) (c : Except KErr Unit) : Prop := c = .ok () ∨ ∃ e : KErr, c = .error e ∧ B e

theorem Guard.bind {α β : Type} {k : α → β} {c : Except KErr Unit} {x : Except KErr β} {y : Except JErr α}
    (h : Guard B c) (hx : FRel B k x y) : FRel B k (c.bind fun _ => x) y := by
  rcases h with rfl | ⟨e, rfl, he⟩
  · exact hx
  · exact .inr ⟨e, rfl, he⟩

/-- Objects that were not freed can be used. -/
def FWorld.Open (w : FWorld) : Prop := ∀ i, i ∉ w.gone → w.reach i = .ok ()

theorem FWorld.reach_guard {w : FWorld} {j : Nat} (h : B .freed ∨ w.Open) (hj : j ∉ w.gone) :
    Guard B (w.reach j) := by
  rcases h with hB | h
  · simp only [FWorld.reach]
    split
    · exact .inl rfl
    · split
      · exact .inr ⟨_, rfl, hB⟩
      · exact .inl rfl
  · exact .inl (h j hj)

theorem FWorld.use_guard {w : FWorld} {j : Nat} (h : B .freed ∨ w.Open) (hj : B (.js .moved) ∨ j ∉ w.gone) :
    Guard B (w.use j) := by
  simp only [FWorld.use]
  split
  · rename_i hg
    exact .inr ⟨_, rfl, hj.resolve_right fun x => x (by simpa using hg)⟩
  · rename_i hg
    exact FWorld.reach_guard h (by simpa using hg)

theorem FWorld.hand_guard {w : FWorld} {c : JSrc} (h : B .freed ∨ w.Open)
    (hc : B .null ∨ ∀ j, c = .obj j → j ∉ w.gone) : Guard B (w.hand c) := by
  cases c with
  | str t => exact .inl rfl
  | obj j =>
    simp only [FWorld.hand]
    split
    · rename_i hg
      exact .inr ⟨_, rfl, hc.resolve_right fun x => x j rfl (by simpa using hg)⟩
    · rename_i hg
      exact FWorld.reach_guard h (by simpa using hg)

theorem FWorld.reach_congr {w : FWorld} {b : World} (h : b.objs.map JObj.ptr = w.base.objs.map JObj.ptr) (i : Nat) :
    ({ w with base := b } : FWorld).reach i = w.reach i := by
  have h1 : (b.objs[i]?).map JObj.ptr = (w.base.objs[i]?).map JObj.ptr := by
    rw [← List.getElem?_map, ← List.getElem?_map, h]
  simp only [FWorld.reach]
  cases h2 : b.objs[i]? with
  | none =>
    rw [h2] at h1
    cases h3 : w.base.objs[i]? with
    | none => rfl
    | some o => rw [h3] at h1; cases h1
  | some o =>
    rw [h2] at h1
    cases h3 : w.base.objs[i]? with
    | none => rw [h3] at h1; cases h1
    | some o' =>
      rw [h3] at h1
      simp only [Option.map_some, Option.some.injEq] at h1
      simp only [h1]

theorem FWorld.Open.congr {w : FWorld} (h : w.Open) {b : World}
    (hb : b.objs.map JObj.ptr = w.base.objs.map JObj.ptr) : ({ w with base := b } : FWorld).Open :=
  fun i hi => (FWorld.reach_congr hb i).trans (h i hi)

/-- With another `World`. -/
def FWorld.put (w : FWorld) (b : World) : FWorld := { w with base := b }

/-- With a result. -/
def FWorld.with_ {α : Type} (w : FWorld) (p : α × World) : α × FWorld := (p.1, w.put p.2)

theorem FWorld.addItem_rel {w : FWorld} {j : Nat} {c : JSrc} (h : B .freed ∨ w.Open)
    (hj : B (.js .moved) ∨ j ∉ w.gone) (hc : B .null ∨ ∀ j, c = .obj j → j ∉ w.gone) :
    FRel B w.put (w.addItem j c) (w.base.addItem j c) :=
  (FWorld.use_guard h hj).bind ((FWorld.hand_guard h hc).bind .lift)

theorem FWorld.addItems_rel {j : Nat} : ∀ {cs : List JSrc} {w : FWorld}, (B .freed ∨ w.Open) →
    (B (.js .moved) ∨ j ∉ w.gone) → (B .null ∨ ∀ j, .obj j ∈ cs → j ∉ w.gone) →
    FRel B w.put (w.addItems j cs) (w.base.addItems j cs)
  | [], w, _, _, _ => .inl rfl
  | c :: cs, w, h, hj, hc => by
    simp only [FWorld.addItems, World.addItems]
    refine FRel.bind (FWorld.addItem_rel (c := c) h hj (hc.imp_right fun x i hi => x i (by simp [hi]))) fun b hb => ?_
    exact FWorld.addItems_rel (w := w.put b) (h.imp_right fun x => x.congr (World.addItem_ptrs hb).2) hj
      (hc.imp_right fun x i hi => x i (by simp [hi]))

theorem FWorld.readSource_rel {w : FWorld} {j : Nat} (h : B .freed ∨ w.Open) (hj : B (.js .moved) ∨ j ∉ w.gone) :
    FRel B w.with_ (w.readSource j) (w.base.readSource j) := by
  refine Guard.bind ?_ .lift
  split
  · exact .inl rfl
  · exact FWorld.use_guard h hj

/-- `ReplaceSource`s were not freed. -/
def FWorld.Hashes (w : FWorld) : Prop :=
  ∀ i o, w.base.objs[i]? = some o → o.kind.tag = .replace → i ∉ w.gone

theorem FWorld.Hashes.congr {w : FWorld} (h : w.Hashes) {b : World} (hb : b.objs = w.base.objs) :
    (w.put b).Hashes :=
  fun i o ho => h i o (by rw [← hb]; exact ho)

theorem FWorld.hashEach_rel {f : FWorld → Nat → Except KErr (List Str × FWorld)}
    {g : World → Nat → Except JErr (List Str × World)}
    (hf : ∀ (w : FWorld) j, (B .freed ∨ w.Open) → (B (.js .moved) ∨ w.Hashes) → FRel B w.with_ (f w j) (g w.base j))
    (hg : ∀ w j, Post (fun p => p.2.objs = w.objs) (g w j)) : ∀ {cs : List JSrc} {w : FWorld},
    (B .freed ∨ w.Open) → (B (.js .moved) ∨ w.Hashes) →
    FRel B w.with_ (FWorld.hashEach f w cs) (World.hashEach g w.base cs)
  | [], w, _, _ => .inl rfl
  | .str t :: cs, w, h, h' => by
    simp only [FWorld.hashEach, World.hashEach]
    exact (FWorld.hashEach_rel hf hg h h').map fun _ => rfl
  | .obj j :: cs, w, h, h' => by
    simp only [FWorld.hashEach, World.hashEach]
    refine (hf w j h h').bind fun p hp => ?_
    have ho := hg w.base j
    rw [hp] at ho
    have ho : p.2.objs = w.base.objs := ho
    exact (FWorld.hashEach_rel (w := w.put p.2) hf hg (h.imp_right fun x => x.congr (by rw [ho]))
      (h'.imp_right fun x => x.congr ho)).map fun _ => rfl

theorem FWorld.hashObj_rel : ∀ (n : Nat) (w : FWorld) (j : Nat), (B .freed ∨ w.Open) →
    (B (.js .moved) ∨ w.Hashes) → FRel B w.with_ (FWorld.hashObj n w j) (World.hashObj n w.base j)
  | 0, w, j, _, _ => .inl rfl
  | n + 1, w, j, h, h' => by
    simp only [FWorld.hashObj, World.hashObj]
    cases ho : w.base.objs[j]? with
    | none => exact .inl rfl
    | some o =>
      dsimp only
      cases hk : o.kind with
      | raw v => exact .inl rfl
      | original v => exact .inl rfl
      | l2l v a => exact .inl rfl
      | sms v a => exact .inl rfl
      | prefixed pre c =>
        exact (FWorld.hashEach_rel (FWorld.hashObj_rel n) (World.hashObj_objs n) h h').map fun _ => rfl
      | replace c =>
        exact (FWorld.readSource_rel h (h'.imp_right fun x => x j o ho (by rw [hk]; rfl))).map fun _ => rfl
      | concat cs => exact FWorld.hashEach_rel (FWorld.hashObj_rel n) (World.hashObj_objs n) h h'

/-- A statement with its result. -/
def FWorld.answer (w : FWorld) (p : JAnswer × World) : List JAnswer × FWorld := ([p.1], w.put p.2)

/-- The statement uses the wasm object of the object. -/
def JOp.Uses (objs : List JObj) : JOp → Nat → Prop
  | .newPrefix _ c, j | .newReplace c, j => c = .obj j
  | .newConcat cs, j => .obj j ∈ cs
  | .add k c, j => k = j ∨ c = .obj j
  | .replace k _ _ _, j | .insert k _ _, j => k = j
  | .source k, j | .size k, j => k = j ∧ (objs[k]?.bind (·.kind.value)) = none
  | .sourceAndMap k _ _, j => k = j ∧ ∀ o v, objs[k]? = some o → o.kind.tag ≠ .raw v
  | .hash _, j => ∃ o, objs[j]? = some o ∧ o.kind.tag = .replace
  | _, _ => False

theorem JOp.run_rel {w : FWorld} {op : JOp} (h : B .freed ∨ w.Open ∧ ∀ p ∈ w.lost, p < w.base.heap.length)
    (h' : B (.js .moved) ∧ B .null ∨
      (∀ i ∈ w.gone, i < w.base.objs.length) ∧ ∀ j ∈ w.gone, ¬op.Uses w.base.objs j) :
    FRel B w.answer ((FOp.js op).run w) (op.run w.base) := by
  have plain : ∀ c : Except KErr Unit, Guard B c →
      FRel B w.answer (c.bind fun _ => (liftErr (op.run w.base)).map fun p => ([p.1], { w with base := p.2 }))
        (op.run w.base) := fun c hc => hc.bind .lift
  have ho : B .freed ∨ w.Open := h.imp_right And.left
  have used : ∀ j, op.Uses w.base.objs j → B (.js .moved) ∨ j ∉ w.gone := fun j hu =>
    h'.imp And.left fun x hg => x.2 j hg hu
  have handed : ∀ c : JSrc, (∀ j, c = .obj j → op.Uses w.base.objs j) → B .null ∨ ∀ j, c = .obj j → j ∉ w.gone :=
    fun c hc => h'.imp And.right fun x j hj hg => x.2 j hg (hc j hj)
  cases op with
  | newConcat cs =>
    simp only [FOp.run, JOp.run]
    refine FRel.bind (k := id) (y := w.base.create .newConcat (.concat [])) ?_ fun b hb => ?_
    · refine .inl ?_
      cases w.base.create .newConcat (.concat []) <;> rfl
    · refine FRel.map (FWorld.addItems_rel (w := w.put b) ?_ ?_ ?_) fun _ => rfl
      · refine h.imp_right fun x i hi => ?_
        obtain ⟨h1, h2⟩ := x
        obtain ⟨p, hp, rfl⟩ := Except.map_ok_iff.1 hb
        have hi' := h1 i hi
        by_cases hlt : i < w.base.objs.length
        · simp only [FWorld.reach, FWorld.put, List.getElem?_append_left hlt] at hi' ⊢
          exact hi'
        · have hr := List.getElem?_append_right (l₁ := w.base.objs)
            (l₂ := [⟨w.base.heap.length, .concat []⟩]) (Nat.le_of_not_lt hlt)
          simp only [FWorld.reach, FWorld.put, hr]
          split
          · rfl
          · rename_i o ho
            have := List.mem_of_getElem? ho
            cases List.mem_singleton.1 this
            have hc : w.lost.contains w.base.heap.length = false := by
              cases hc : w.lost.contains w.base.heap.length with
              | false => rfl
              | true => exact absurd (h2 _ (by simpa using hc)) (Nat.lt_irrefl _)
            exact if_neg (by rw [hc]; simp)
      · exact h'.imp And.left fun x hg => Nat.lt_irrefl _ (x.1 _ hg)
      · exact h'.imp And.right fun x j hj hg => x.2 j hg hj
  | add k c =>
    exact (FWorld.addItem_rel ho (used k (.inl rfl)) (handed c fun j hj => .inr hj)).map fun _ => rfl
  | hash j =>
    exact (FWorld.hashObj_rel _ w j ho
      (h'.imp And.left fun x i o ho ht hg => x.2 i hg ⟨o, ho, ht⟩)).map fun _ => rfl
  | newPrefix p c => exact plain _ (FWorld.hand_guard ho (handed c fun j hj => hj))
  | newReplace c => exact plain _ (FWorld.hand_guard ho (handed c fun j hj => hj))
  | replace k a b t => exact plain _ (FWorld.use_guard ho (used k rfl))
  | insert k a t => exact plain _ (FWorld.use_guard ho (used k rfl))
  | source k =>
    refine plain (if w.answers k then .ok () else w.use k) ?_
    split
    · exact .inl rfl
    · rename_i ha
      exact FWorld.use_guard ho (used k ⟨rfl, by simpa [FWorld.answers] using ha⟩)
  | size k =>
    refine plain (if w.answers k then .ok () else w.use k) ?_
    split
    · exact .inl rfl
    · rename_i ha
      exact FWorld.use_guard ho (used k ⟨rfl, by simpa [FWorld.answers] using ha⟩)
  | sourceAndMap k c m =>
    refine plain (FWorld.check w (.sourceAndMap k c m)) ?_
    simp only [FWorld.check]
    split
    · exact .inl rfl
    · rename_i hn
      refine FWorld.use_guard ho (used k ⟨rfl, fun o v ho ht => ?_⟩)
      obtain ⟨p, kd⟩ := o
      cases kd <;> simp only [JKind.tag] at ht <;> first | cases ht; exact hn _ _ ho | cases ht
  | newRaw v => exact plain _ (.inl rfl)
  | newOriginal v n => exact plain _ (.inl rfl)
  | newL2l v n o => exact plain _ (.inl rfl)
  | newSms v n m o i => exact plain _ (.inl rfl)
  | get k f => exact plain _ (.inl rfl)
  | set k a => exact plain _ (.inl rfl)

/-- Exceptions and freed memory due to `free()`. -/
def KErr.Due (e : KErr) : Prop := e = .js .moved ∨ e = .null ∨ e = .freed

/-- Whatever was freed. -/
theorem JOp.run_due (w : FWorld) (op : JOp) : FRel KErr.Due w.answer ((FOp.js op).run w) (op.run w.base) :=
  JOp.run_rel (.inl (.inr (.inr rfl))) (.inl ⟨.inl rfl, .inr (.inl rfl)⟩)

end WS
