import Verif.Proofs.JsFree
import Verif.Props.C61
/-!
# C82: `free()` called by the program

Claim: `free()` of a source does not change what the other statements return. What was built from a freed source
keeps working; the freed source still answers what it keeps itself, and throws otherwise. A program that frees
only what it does not use any more returns what it would return without the calls of `free()`.
-/

namespace WS
open Spec

/-! ## Specification -/

/-- The program without the calls of `free()`. -/
def Spec.unfreed : List FOp → List JOp
  | [] => []
  | .free _ :: ops => unfreed ops
  | .js op :: ops => op :: unfreed ops

/-- The value that an object made by the statement keeps. -/
def Spec.JOp.kept : JOp → Option Str
  | .newRaw v | .newOriginal v _ | .newL2l v _ _ | .newSms v _ _ _ _ => some v
  | _ => none

/-- The statement needs the object's part in wasm; `made`: the statements that made the objects. A `RawSource`
shares it with the `RawSource`s of the same value. The hash of an object may need all `ReplaceSource`s. -/
def Spec.JOp.Needs (made : List JOp) : JOp → Nat → Prop
  | .newPrefix _ c, j | .newReplace c, j => c = .obj j
  | .newConcat cs, j => .obj j ∈ cs
  | .add k c, j => k = j ∨ c = .obj j
  | .replace k _ _ _, j | .insert k _ _, j => k = j
  | .source k, j | .size k, j => k = j ∧ made[k]?.bind JOp.kept = none
  | .sourceAndMap k _ _, j => k = j ∧ ∀ v, made[k]? ≠ some (.newRaw v)
  | .hash _, j => ∃ c, made[j]? = some (.newReplace c)
  | .newRaw v, j => made[j]? = some (.newRaw v)
  | _, _ => False

/-- Objects are freed once, and not used any more; of `RawSource`s of one value only if it is the only one.
`before`: the statements so far; `gone`: what was freed. -/
def Spec.Careful : List JOp → List Nat → List FOp → Prop
  | _, _, [] => True
  | before, gone, .free j :: ops =>
    j < (jmade before).length ∧ j ∉ gone ∧
      (∀ (v : Str) (i : Nat), (jmade before)[j]? = some (.newRaw v) → (jmade before)[i]? = some (.newRaw v) →
        i = j) ∧
      Careful before (j :: gone) ops
  | before, gone, .js op :: ops =>
    (∀ j ∈ gone, ¬JOp.Needs (jmade before) op j) ∧ Careful (before ++ [op]) gone ops

/-- The statement mentions the object. -/
def Spec.JOp.Mentions : JOp → Nat → Prop
  | .newPrefix _ c, j | .newReplace c, j => c = .obj j
  | .newConcat cs, j => .obj j ∈ cs
  | .add k c, j => k = j ∨ c = .obj j
  | .replace k _ _ _, j | .insert k _ _, j | .source k, j | .size k, j | .sourceAndMap k _ _, j | .hash k, j => k = j
  | _, _ => False

/-- Objects are freed once, and not mentioned any more. -/
def Spec.Dropped : List JOp → List Nat → List FOp → Prop
  | _, _, [] => True
  | before, gone, .free j :: ops =>
    j < (jmade before).length ∧ j ∉ gone ∧ Dropped before (j :: gone) ops
  | before, gone, .js op :: ops => (∀ j ∈ gone, ¬JOp.Mentions op j) ∧ Dropped (before ++ [op]) gone ops

/-- No two `RawSource`s have the same value. -/
def Spec.OneRaw (ops : List JOp) : Prop :=
  ∀ (v : Str) (i j : Nat), (jmade ops)[i]? = some (.newRaw v) → (jmade ops)[j]? = some (.newRaw v) → i = j

/-! ## Proofs -/

theorem jtags_get (ops : List JOp) (j : Nat) :
    (ops.flatMap JOp.tag)[j]? = (jmade ops)[j]?.bind fun op => op.tag.head? := by
  induction ops generalizing j with
  | nil => rfl
  | cons op ops ih =>
    have key : op.tag = [] ∧ Spec.JOp.makes op = false ∨ (∃ t, op.tag = [t]) ∧ Spec.JOp.makes op = true := by
      cases op <;> simp [JOp.tag, Spec.JOp.makes]
    rcases key with ⟨h1, h2⟩ | ⟨⟨t, h1⟩, h2⟩
    · simp only [List.flatMap_cons, h1, List.nil_append, jmade, List.filter_cons, h2]
      exact ih j
    · have h3 : jmade (op :: ops) = op :: jmade ops := by simp [jmade, h2]
      rw [List.flatMap_cons, h1, h3]
      cases j with
      | zero => simp [h1]
      | succ j => simpa using ih j

theorem World.Held.tag {ops : List JOp} {ps : List Nat} {w : World} (h : w.Held (ops.flatMap JOp.tag) ps) (j : Nat) :
    (w.objs[j]?).map (fun o => o.kind.tag) = (jmade ops)[j]?.bind fun op => op.tag.head? := by
  rw [← jtags_get, ← h.tags, List.getElem?_map]

theorem World.Held.now {tags : List JTag} {ps : List Nat} {w : World} (h : w.Held tags ps) :
    w.Held tags (w.objs.map JObj.ptr) :=
  ⟨h.abs, h.tags, ⟨[], by simp⟩, h.share, h.lt, h.raws, h.boots⟩

theorem World.Held.empty : World.empty.Held [] [] := by
  refine ⟨⟨[], Abs.empty⟩, rfl, ⟨[], rfl⟩, ?_, ?_, ?_, ?_⟩ <;> simp [World.empty]

def JTag.value : JTag → Option Str
  | .raw v | .leaf v => some v
  | _ => none

theorem JKind.value_tag (k : JKind) : k.value = k.tag.value := by cases k <;> rfl

theorem jkept_tag (op : JOp) : Spec.JOp.kept op = op.tag.head?.bind JTag.value := by cases op <;> rfl

theorem World.Held.kept {ops : List JOp} {ps : List Nat} {w : World} (h : w.Held (ops.flatMap JOp.tag) ps) (j : Nat) :
    (w.objs[j]?).bind (fun o => o.kind.value) = (jmade ops)[j]?.bind Spec.JOp.kept := by
  have h1 := congrArg (fun x => Option.bind x JTag.value) (h.tag j)
  simp only [Option.bind_map] at h1
  have h2 : (fun o : JObj => o.kind.value) = JTag.value ∘ fun o => o.kind.tag := by
    funext o; exact JKind.value_tag _
  rw [h2, h1, Option.bind_assoc]
  congr 1
  funext op; exact (jkept_tag op).symm

theorem World.Held.raw {ops : List JOp} {ps : List Nat} {w : World} (h : w.Held (ops.flatMap JOp.tag) ps)
    {j : Nat} {v : Str} : (∃ o, w.objs[j]? = some o ∧ o.kind.tag = .raw v) ↔ (jmade ops)[j]? = some (.newRaw v) := by
  have h1 := h.tag j
  constructor
  · rintro ⟨o, ho, ht⟩
    rw [ho, Option.map_some, ht] at h1
    obtain ⟨op, h2, h3⟩ := Option.bind_eq_some_iff.1 h1.symm
    rw [h2]
    cases op <;> simp_all [JOp.tag]
  · intro h2
    rw [h2] at h1
    obtain ⟨o, ho, ht⟩ := Option.map_eq_some_iff.1 h1
    exact ⟨o, ho, ht⟩

theorem World.Held.replaces {ops : List JOp} {ps : List Nat} {w : World} (h : w.Held (ops.flatMap JOp.tag) ps)
    {j : Nat} {o : JObj} (ho : w.objs[j]? = some o) (ht : o.kind.tag = .replace) :
    ∃ c, (jmade ops)[j]? = some (.newReplace c) := by
  have h1 := h.tag j
  rw [ho, Option.map_some, ht] at h1
  obtain ⟨op, h2, h3⟩ := Option.bind_eq_some_iff.1 h1.symm
  rw [h2]
  cases op <;> simp_all [JOp.tag]

theorem World.Held.uses {ops : List JOp} {ps : List Nat} {w : World} (h : w.Held (ops.flatMap JOp.tag) ps)
    {op : JOp} {j : Nat} (hu : op.Uses w.objs j) : Spec.JOp.Needs (jmade ops) op j := by
  cases op with
  | source k => exact ⟨hu.1, by rw [← h.kept]; exact hu.2⟩
  | size k => exact ⟨hu.1, by rw [← h.kept]; exact hu.2⟩
  | sourceAndMap k c m =>
    refine ⟨hu.1, fun v hv => ?_⟩
    obtain ⟨o, ho, ht⟩ := h.raw.2 hv
    exact hu.2 o v ho ht
  | hash k =>
    obtain ⟨o, ho, ht⟩ := hu
    exact h.replaces ho ht
  | newRaw v => exact hu.elim
  | _ => exact hu

theorem World.Held.length {ops : List JOp} {ps : List Nat} {w : World} (h : w.Held (ops.flatMap JOp.tag) ps) :
    w.objs.length = (jmade ops).length := by
  have h1 : ∀ ops : List JOp, (ops.flatMap JOp.tag).length = (jmade ops).length := by
    intro ops
    induction ops with
    | nil => rfl
    | cons op ops ih =>
      rw [List.flatMap_cons, List.length_append, ih]
      have hc : jmade (op :: ops) = jmade [op] ++ jmade ops := List.filter_append (l₁ := [op]) ..
      rw [hc, List.length_append]
      cases op <;> simp [JOp.tag, jmade, List.filter_cons, Spec.JOp.makes]
  rw [← h1, ← h.tags, List.length_map]

/-- What was freed is what is lost, and nothing else has it. -/
structure FInv (before : List JOp) (w : FWorld) : Prop where
  held : w.base.Held (before.flatMap JOp.tag) []
  inside : ∀ j ∈ w.gone, j < w.base.objs.length
  lost : ∀ p ∈ w.lost, ∃ j ∈ w.gone, ∃ o, w.base.objs[j]? = some o ∧ o.ptr = p
  alone : ∀ j ∈ w.gone, ∀ (v : Str) (i : Nat), (jmade before)[j]? = some (.newRaw v) →
    (jmade before)[i]? = some (.newRaw v) → i = j

theorem FInv.open_ {before : List JOp} {w : FWorld} (h : FInv before w) : w.Open := by
  intro i hi
  simp only [FWorld.reach]
  split
  · rfl
  · rename_i o ho
    split
    · rename_i hc
      exfalso
      obtain ⟨j, hj, o', ho', hp⟩ := h.lost o.ptr (by simpa using hc)
      rcases h.held.share i j o o' ho ho' hp.symm with rfl | ⟨v, h1, h2⟩
      · exact hi hj
      · have := h.alone j hj v i (h.held.raw.1 ⟨o', ho', h2⟩) (h.held.raw.1 ⟨o, ho, h1⟩)
        exact hi (this ▸ hj)
    · rfl

theorem FInv.lt {before : List JOp} {w : FWorld} (h : FInv before w) : ∀ p ∈ w.lost, p < w.base.heap.length := by
  intro p hp
  obtain ⟨j, -, o, ho, rfl⟩ := h.lost p hp
  exact h.held.lt o (List.mem_of_getElem? ho)

theorem jmade_snoc (before : List JOp) (op : JOp) (i : Nat) (x : JOp)
    (h : (jmade (before ++ [op]))[i]? = some x) : (jmade before)[i]? = some x ∨ x = op ∧ (jmade before).length ≤ i := by
  have hm : jmade (before ++ [op]) = jmade before ++ jmade [op] := List.filter_append ..
  rw [hm] at h
  by_cases hi : i < (jmade before).length
  · rw [List.getElem?_append_left hi] at h; exact .inl h
  · rw [List.getElem?_append_right (Nat.le_of_not_lt hi)] at h
    have := List.mem_of_getElem? h
    simp only [jmade, List.mem_filter, List.mem_singleton] at this
    exact .inr ⟨this.1, Nat.le_of_not_lt hi⟩

theorem FInv.next {before : List JOp} {w : FWorld} (h : FInv before w) {op : JOp} {a : JAnswer} {b : World}
    (hr : op.run w.base = .ok (a, b)) (ha : ∀ j ∈ w.gone, ∀ (v : Str) (i : Nat),
      (jmade (before ++ [op]))[j]? = some (.newRaw v) → (jmade (before ++ [op]))[i]? = some (.newRaw v) → i = j) :
    FInv (before ++ [op]) (w.put b) := by
  have hh : b.Held (before.flatMap JOp.tag ++ op.tag) (w.base.objs.map JObj.ptr) := by
    have := JOp.run_held h.held.now op
    rw [hr] at this
    exact this
  have ht : (before ++ [op]).flatMap JOp.tag = before.flatMap JOp.tag ++ op.tag := by simp
  obtain ⟨r, hp⟩ := hh.ptrs
  have hlen : w.base.objs.length ≤ b.objs.length := by
    have := congrArg List.length hp
    simp only [List.length_map, List.length_append] at this
    omega
  refine ⟨ht ▸ ⟨hh.abs, hh.tags, ⟨_, rfl⟩, hh.share, hh.lt, hh.raws, hh.boots⟩,
    fun j hj => Nat.lt_of_lt_of_le (h.inside j hj) hlen, fun p hl => ?_, ha⟩
  · obtain ⟨j, hj, o, ho, rfl⟩ := h.lost p hl
    have h3 : (b.objs.map JObj.ptr)[j]? = some o.ptr := by
      rw [hp, List.getElem?_append_left (by rw [List.length_map]; exact h.inside j hj), List.getElem?_map, ho]
      rfl
    rw [List.getElem?_map] at h3
    obtain ⟨o', ho', he⟩ := Option.map_eq_some_iff.1 h3
    exact ⟨j, hj, o', ho', he⟩

theorem FInv.step {before : List JOp} {w : FWorld} (h : FInv before w) {op : JOp} {a : JAnswer} {b : World}
    (hr : op.run w.base = .ok (a, b)) (hn : ∀ j ∈ w.gone, ¬Spec.JOp.Needs (jmade before) op j) :
    FInv (before ++ [op]) (w.put b) := by
  refine h.next hr fun j hj v i h1 h2 => ?_
  have hj' : j < (jmade before).length := by rw [← h.held.length]; exact h.inside j hj
  rcases jmade_snoc before op j _ h1 with h3 | ⟨-, h3⟩
  · rcases jmade_snoc before op i _ h2 with h4 | ⟨h4, -⟩
    · exact h.alone j hj v i h3 h4
    · subst h4
      exact absurd h3 (hn j hj)
  · omega

theorem FWorld.runFrom_careful : ∀ (ops : List FOp) (w : FWorld) (before : List JOp), FInv before w →
    Careful before w.gone ops → (w.runFrom ops).map Prod.fst = liftErr (returns w.base (unfreed ops))
  | [], _, _, _, _ => rfl
  | .free j :: ops, w, before, h, hc => by
    obtain ⟨h1, h2, h3, h4⟩ := hc
    have hj : j < w.base.objs.length := by rw [h.held.length]; exact h1
    have ho := List.getElem?_eq_getElem hj
    have hreach := h.open_ j h2
    simp only [FWorld.reach, ho] at hreach
    have hl : ¬(w.lost.contains w.base.objs[j].ptr = true) := by
      intro hl; rw [if_pos hl] at hreach; cases hreach
    have hg : ¬(w.gone.contains j = true) := by simpa using h2
    have hrun : (FOp.free j).run w
        = .ok ([], { w with gone := j :: w.gone, lost := w.base.objs[j].ptr :: w.lost }) := by
      simp only [FOp.run, ho]
      rw [if_neg hg, if_neg hl]
    simp only [FWorld.runFrom, hrun, Except.bind, unfreed]
    have ih := FWorld.runFrom_careful ops
      { w with gone := j :: w.gone, lost := w.base.objs[j].ptr :: w.lost } before ?_ h4
    · rw [← ih]
      cases FWorld.runFrom _ ops <;> rfl
    · refine ⟨h.held, ?_, ?_, ?_⟩
      · intro i hi
        rcases List.mem_cons.1 hi with rfl | hi
        · exact hj
        · exact h.inside i hi
      · intro p hp
        rcases List.mem_cons.1 hp with rfl | hp
        · exact ⟨j, by simp, _, ho, rfl⟩
        · obtain ⟨i, hi, o, h5, h6⟩ := h.lost p hp
          exact ⟨i, by simp [hi], o, h5, h6⟩
      · intro i hi v k h5 h6
        rcases List.mem_cons.1 hi with rfl | hi
        · exact h3 v k h5 h6
        · exact h.alone i hi v k h5 h6
  | .js op :: ops, w, before, h, hc => by
    obtain ⟨h1, h2⟩ := hc
    have hr : (FOp.js op).run w = (liftErr (op.run w.base)).map w.answer :=
      (JOp.run_rel (B := fun _ => False) (w := w) (op := op) (.inr ⟨h.open_, h.lt⟩)
        (.inr ⟨h.inside, fun j hj hu => h1 j hj (h.held.uses hu)⟩)).resolve_right fun ⟨_, _, x⟩ => x
    simp only [FWorld.runFrom, hr, unfreed, returns]
    cases hb : op.run w.base with
    | error e => rfl
    | ok p =>
      have ih := FWorld.runFrom_careful ops (w.put p.2) (before ++ [op]) (h.step hb h1) h2
      simp only [liftErr, Except.map, Except.bind, FWorld.answer] at ih ⊢
      have hbase : (w.put p.2).base = p.2 := rfl
      rw [hbase] at ih
      cases hx : (w.put p.2).runFrom ops with
      | error e =>
        rw [hx] at ih
        cases hy : returns p.2 (unfreed ops) with
        | error e' => rw [hy] at ih; simpa using ih
        | ok l => rw [hy] at ih; cases ih
      | ok q =>
        rw [hx] at ih
        cases hy : returns p.2 (unfreed ops) with
        | error e' => rw [hy] at ih; cases ih
        | ok l => rw [hy] at ih; cases ih; rfl

theorem FInv.empty : FInv [] FWorld.empty :=
  ⟨World.Held.empty, by simp [FWorld.empty], by simp [FWorld.empty], by simp [FWorld.empty]⟩

/-- What the other statements return is not changed. -/
theorem C82_unaffected_partial {ops : List FOp} (h : Careful [] [] ops) :
    (FWorld.run ops).map Prod.fst = liftErr (returns World.empty (unfreed ops)) :=
  FWorld.runFrom_careful ops FWorld.empty [] FInv.empty h

/-! ## Any program -/

theorem FWorld.runFrom_same : ∀ (ops : List FOp) (w : FWorld),
    (∀ l w', w.runFrom ops = .ok (l, w') → returns w.base (unfreed ops) = .ok l ∧
      w.base.runFrom (unfreed ops) = .ok w'.base) ∧
    (∀ e, w.runFrom ops = .error e → e.Due ∨ e = .js .noObject ∨
      ∃ e', e = .js e' ∧ returns w.base (unfreed ops) = .error e')
  | [], w => by
    refine ⟨fun l w' h => ?_, fun e h => ?_⟩
    · cases h; exact ⟨rfl, rfl⟩
    · cases h
  | .free j :: ops, w => by
    simp only [FWorld.runFrom, unfreed]
    have key : (∃ e : KErr, (FOp.free j).run w = .error e ∧ (e.Due ∨ e = .js .noObject)) ∨
        ∃ w1 : FWorld, (FOp.free j).run w = .ok ([], w1) ∧ w1.base = w.base := by
      simp only [FOp.run]
      split
      · exact .inl ⟨_, rfl, .inr rfl⟩
      · split
        · exact .inl ⟨_, rfl, .inl (.inr (.inl rfl))⟩
        · split
          · exact .inl ⟨_, rfl, .inl (.inr (.inr rfl))⟩
          · exact .inr ⟨_, rfl, rfl⟩
    rcases key with ⟨e, h1, h2⟩ | ⟨w1, h1, h2⟩
    · rw [h1]
      refine ⟨(fun l w' h => by cases h), fun e' h => ?_⟩
      cases h
      rcases h2 with h2 | h2
      · exact .inl h2
      · exact .inr (.inl h2)
    · rw [h1]
      have ih := FWorld.runFrom_same ops w1
      rw [h2] at ih
      refine ⟨fun l w' h => ih.1 l w' ?_, fun e h => ih.2 e ?_⟩
      · obtain ⟨q, h3, h4⟩ := Except.map_ok_iff.1 h
        cases h4; exact h3
      · simp only [Except.bind] at h
        cases hx : w1.runFrom ops with
        | error e' => rw [hx] at h; cases h; rfl
        | ok q => rw [hx] at h; cases h
  | .js op :: ops, w => by
    have hr := JOp.run_due w op
    simp only [FWorld.runFrom, unfreed, returns, World.runFrom]
    rcases hr with hr | ⟨e, hr, he⟩
    · rw [hr]
      cases hb : op.run w.base with
      | error e =>
        refine ⟨(fun l w' h => by cases h), fun e' h => ?_⟩
        cases h
        exact .inr (.inr ⟨e, rfl, rfl⟩)
      | ok p =>
        have ih := FWorld.runFrom_same ops (w.put p.2)
        simp only [liftErr, Except.map, Except.bind, FWorld.answer] at ih ⊢
        have hbase : (w.put p.2).base = p.2 := rfl
        rw [hbase] at ih
        cases hx : (w.put p.2).runFrom ops with
        | error e =>
          refine ⟨(fun l w' h => by cases h), fun e' h => ?_⟩
          cases h
          rcases ih.2 e hx with h | h | ⟨e', h, h'⟩
          · exact .inl h
          · exact .inr (.inl h)
          · exact .inr (.inr ⟨e', h, by rw [h']⟩)
        | ok q =>
          refine ⟨fun l w' h => ?_, fun e' h => by cases h⟩
          cases h
          have h3 := ih.1 q.1 q.2 hx
          exact ⟨by rw [h3.1]; rfl, h3.2⟩
    · rw [hr]
      refine ⟨fun l w' h => (by cases h), fun e' h => ?_⟩
      cases h
      exact .inl he

/-- If a program returns, it returns what it would without the calls of `free()`. -/
theorem C82_returns {ops : List FOp} {l : List JAnswer} {w : FWorld} (h : FWorld.run ops = .ok (l, w)) :
    returns World.empty (unfreed ops) = .ok l :=
  ((FWorld.runFrom_same ops FWorld.empty).1 l w h).1

/-- An exception is due to `free()`, or would be thrown without. (`noObject`: no such object or method.) -/
theorem C82_throws {ops : List FOp} {e : KErr} (h : FWorld.run ops = .error e) :
    (e = .js .moved ∨ e = .null ∨ e = .freed) ∨ e = .js .noObject ∨
      ∃ e', e = .js e' ∧ returns World.empty (unfreed ops) = .error e' :=
  (FWorld.runFrom_same ops FWorld.empty).2 e h

/-! ## Freed memory -/

theorem Spec.OneRaw.left {ops more : List JOp} (h : OneRaw (ops ++ more)) : OneRaw ops := by
  have key : ∀ {i : Nat} {x : JOp}, (jmade ops)[i]? = some x → (jmade (ops ++ more))[i]? = some x := by
    intro i x hx
    have hm : jmade (ops ++ more) = jmade ops ++ jmade more := List.filter_append ..
    rw [hm, List.getElem?_append_left (List.getElem?_eq_some_iff.1 hx).1]
    exact hx
  exact fun v i j h1 h2 => h v i j (key h1) (key h2)

theorem FWorld.runFrom_memory : ∀ (ops : List FOp) (w : FWorld) (before : List JOp), FInv before w →
    OneRaw (before ++ unfreed ops) → w.runFrom ops ≠ .error .freed
  | [], w, before, h, hc => by simp [FWorld.runFrom]
  | .free j :: ops, w, before, h, hc => by
    simp only [FWorld.runFrom, unfreed] at hc ⊢
    intro hx
    cases ho : w.base.objs[j]? with
    | none => simp [FOp.run, ho, Except.bind] at hx
    | some o =>
      by_cases hg : w.gone.contains j = true
      · simp only [FOp.run, ho, hg, if_true, Except.bind] at hx
        cases hx
      · have hreach := h.open_ j (by simpa using hg)
        simp only [FWorld.reach, ho] at hreach
        have hl : ¬(w.lost.contains o.ptr = true) := by
          intro hl; rw [if_pos hl] at hreach; cases hreach
        have hrun : (FOp.free j).run w = .ok ([], { w with gone := j :: w.gone, lost := o.ptr :: w.lost }) := by
          simp only [FOp.run, ho]
          rw [if_neg hg, if_neg hl]
        rw [hrun] at hx
        refine FWorld.runFrom_memory ops { w with gone := j :: w.gone, lost := o.ptr :: w.lost } before
          ⟨h.held, ?_, ?_, fun i _ v k h5 h6 => hc.left v k i h6 h5⟩ hc ?_
        · intro i hi
          rcases List.mem_cons.1 hi with rfl | hi
          · exact (List.getElem?_eq_some_iff.1 ho).1
          · exact h.inside i hi
        · intro p hp
          rcases List.mem_cons.1 hp with rfl | hp
          · exact ⟨j, by simp, _, ho, rfl⟩
          · obtain ⟨i, hi, o, h5, h6⟩ := h.lost p hp
            exact ⟨i, by simp [hi], o, h5, h6⟩
        · simp only [Except.bind] at hx
          cases hy : FWorld.runFrom { w with gone := j :: w.gone, lost := o.ptr :: w.lost } ops with
          | error e => rw [hy] at hx; cases hx; rfl
          | ok q => rw [hy] at hx; cases hx
  | .js op :: ops, w, before, h, hc => by
    have hr := JOp.run_rel (B := fun e => e = .js .moved ∨ e = .null) (w := w) (op := op) (.inr ⟨h.open_, h.lt⟩)
      (.inl ⟨.inl rfl, .inr rfl⟩)
    have hc' : OneRaw ((before ++ [op]) ++ unfreed ops) := by simpa [unfreed] using hc
    simp only [FWorld.runFrom]
    intro hx
    rcases hr with hr | ⟨e, hr, he⟩
    · rw [hr] at hx
      cases hb : op.run w.base with
      | error e => rw [hb] at hx; simp [liftErr, Except.map, Except.bind] at hx
      | ok p =>
        refine FWorld.runFrom_memory ops (w.put p.2) (before ++ [op])
          (h.next hb fun j _ v i h5 h6 => hc'.left v i j h6 h5) hc' ?_
        rw [hb] at hx
        simp only [liftErr, Except.map, Except.bind, FWorld.answer] at hx
        cases hy : (w.put p.2).runFrom ops with
        | error e => rw [hy] at hx; cases hx; rfl
        | ok q => rw [hy] at hx; cases hx
    · rw [hr] at hx
      cases hx
      rcases he with he | he <;> cases he

/-- If no two `RawSource`s have the same value, freed memory is never used, whatever is freed. It is false in general
(`C82_not_general`). -/
theorem C82_memory_partial {ops : List FOp} (h : OneRaw (unfreed ops)) : FWorld.run ops ≠ .error .freed :=
  FWorld.runFrom_memory ops FWorld.empty [] FInv.empty (by simpa using h)

/-! ## Freed objects -/

theorem FWorld.runFrom_append : ∀ (ops more : List FOp) (w : FWorld), w.runFrom (ops ++ more)
    = (w.runFrom ops).bind fun p => (p.2.runFrom more).map fun q => (p.1 ++ q.1, q.2)
  | [], more, w => by
    simp only [List.nil_append, FWorld.runFrom, Except.bind]
    cases w.runFrom more <;> rfl
  | op :: ops, more, w => by
    simp only [List.cons_append, FWorld.runFrom]
    cases op.run w with
    | error e => rfl
    | ok p =>
      simp only [Except.bind]
      rw [FWorld.runFrom_append ops more p.2]
      cases p.2.runFrom ops with
      | error e => rfl
      | ok q =>
        simp only [Except.bind, Except.map]
        cases q.2.runFrom more with
        | error e => rfl
        | ok r => simp

theorem FWorld.runFrom_gone : ∀ {ops : List FOp} {w w' : FWorld} {l : List JAnswer},
    w.runFrom ops = .ok (l, w') → ∀ j, (j ∈ w.gone ∨ .free j ∈ ops) → j ∈ w'.gone
  | [], w, w', l, h, j, hj => by
    cases h
    simpa using hj
  | .free k :: ops, w, w', l, h, j, hj => by
    simp only [FWorld.runFrom, Except.bind_ok_iff, Except.map_ok_iff] at h
    obtain ⟨p, h1, q, h2, h3⟩ := h
    cases h3
    refine FWorld.runFrom_gone h2 j ?_
    simp only [FOp.run] at h1
    split at h1
    · cases h1
    · split at h1
      · cases h1
      · split at h1
        · cases h1
        · cases h1
          rcases hj with hj | hj
          · exact .inl (by simp [hj])
          · rcases List.mem_cons.1 hj with hj | hj
            · cases hj; exact .inl (by simp)
            · exact .inr hj
  | .js op :: ops, w, w', l, h, j, hj => by
    simp only [FWorld.runFrom, Except.bind_ok_iff, Except.map_ok_iff] at h
    obtain ⟨p, h1, q, h2, h3⟩ := h
    cases h3
    refine FWorld.runFrom_gone h2 j ?_
    have hr := JOp.run_due w op
    rw [h1] at hr
    rcases hr with hr | ⟨e, hr, -⟩
    · cases hb : op.run w.base with
      | error e => rw [hb] at hr; cases hr
      | ok x =>
        rw [hb] at hr
        cases hr
        rcases hj with hj | hj
        · exact .inl hj
        · rcases List.mem_cons.1 hj with hj | hj
          · cases hj
          · exact .inr hj
    · cases hr

theorem FWorld.runFrom_inside : ∀ {ops : List FOp} {w w' : FWorld} {l : List JAnswer} {tags : List JTag},
    w.base.Held tags [] → (∀ j ∈ w.gone, j < w.base.objs.length) → w.runFrom ops = .ok (l, w') →
    ∀ j ∈ w'.gone, j < w'.base.objs.length
  | [], w, w', l, tags, H, hi, h => by cases h; exact hi
  | .free k :: ops, w, w', l, tags, H, hi, h => by
    simp only [FWorld.runFrom, Except.bind_ok_iff, Except.map_ok_iff] at h
    obtain ⟨p, h1, q, h2, h3⟩ := h
    cases h3
    simp only [FOp.run] at h1
    split at h1
    · cases h1
    · rename_i o ho
      split at h1
      · cases h1
      · split at h1
        · cases h1
        · cases h1
          refine FWorld.runFrom_inside (w := ⟨w.base, k :: w.gone, o.ptr :: w.lost⟩) (tags := tags) H
            (fun j hj => ?_) h2
          rcases List.mem_cons.1 hj with rfl | hj
          · exact (List.getElem?_eq_some_iff.1 ho).1
          · exact hi j hj
  | .js op :: ops, w, w', l, tags, H, hi, h => by
    simp only [FWorld.runFrom, Except.bind_ok_iff, Except.map_ok_iff] at h
    obtain ⟨p, h1, q, h2, h3⟩ := h
    cases h3
    have hr := JOp.run_due w op
    rw [h1] at hr
    rcases hr with hr | ⟨e, hr, -⟩
    · cases hb : op.run w.base with
      | error e => rw [hb] at hr; cases hr
      | ok x =>
        rw [hb] at hr
        cases hr
        have hh := JOp.run_held H.now op
        rw [hb] at hh
        have hh : x.2.Held (tags ++ op.tag) (w.base.objs.map JObj.ptr) := hh
        refine FWorld.runFrom_inside (tags := tags ++ op.tag)
          ⟨hh.abs, hh.tags, ⟨_, rfl⟩, hh.share, hh.lt, hh.raws, hh.boots⟩ (fun j hj => ?_) h2
        obtain ⟨r, hp⟩ := hh.ptrs
        have h5 := congrArg List.length hp
        simp only [List.length_map, List.length_append] at h5
        have h6 := hi j hj
        show j < x.2.objs.length
        omega
    · cases hr

theorem World.run_held : ∀ {ops before : List JOp} {w w' : World}, w.Held (before.flatMap JOp.tag) [] →
    w.runFrom ops = .ok w' → w'.Held ((before ++ ops).flatMap JOp.tag) []
  | [], before, w, w', h, e => by cases e; simpa using h
  | op :: ops, before, w, w', h, e => by
    obtain ⟨p, h1, h2⟩ := Except.bind_ok_iff.1 e
    have h3 := JOp.run_held h op
    rw [h1] at h3
    have h3 : p.2.Held (before.flatMap JOp.tag ++ op.tag) [] := h3
    have := World.run_held (before := before ++ [op]) (w := p.2) (by simpa using h3) h2
    simpa using this

theorem FWorld.run_held {ops : List FOp} {l : List JAnswer} {w : FWorld} (h : FWorld.run ops = .ok (l, w)) :
    w.base.Held ((unfreed ops).flatMap JOp.tag) [] := by
  have := World.run_held (before := []) World.Held.empty ((FWorld.runFrom_same ops FWorld.empty).1 l w h).2
  simpa using this

theorem FWorld.run_then {ops : List FOp} {l : List JAnswer} {w : FWorld} (h : FWorld.run ops = .ok (l, w)) (op : FOp) :
    FWorld.run (ops ++ [op]) = (op.run w).map fun q => (l ++ q.1, q.2) := by
  rw [FWorld.run, FWorld.runFrom_append]
  rw [FWorld.run] at h
  rw [h]
  simp only [Except.bind, FWorld.runFrom]
  cases op.run w with
  | error e => rfl
  | ok q => simp [Except.map]

/-- The value that a source keeps is still given, freed or not. -/
theorem C82_kept {ops : List FOp} {l : List JAnswer} {w : FWorld} (h : FWorld.run ops = .ok (l, w)) {j : Nat} {v : Str}
    (hv : (jmade (unfreed ops))[j]?.bind Spec.JOp.kept = some v) :
    (FWorld.run (ops ++ [.js (.source j)])).map Prod.fst = .ok (l ++ [.text v]) ∧
      (FWorld.run (ops ++ [.js (.size j)])).map Prod.fst = .ok (l ++ [.size (utf16Len v)]) := by
  rw [← (FWorld.run_held h).kept] at hv
  have ha : w.answers j = true := by simp [FWorld.answers, hv]
  obtain ⟨o, ho, hk⟩ := Option.bind_eq_some_iff.1 hv
  rw [FWorld.run_then h, FWorld.run_then h]
  simp only [FOp.run, FWorld.check, ha, if_true, JOp.run, World.readSource, World.readSize, ho, hk]
  exact ⟨rfl, rfl⟩

theorem FWorld.addItems_gone {j k : Nat} : ∀ {cs : List JSrc} {w : FWorld}, .obj j ∈ cs → w.gone.contains j = true →
    ∃ e, w.addItems k cs = .error e
  | c :: cs, w, hc, hg => by
    have hrun : ∀ w', w.addItem k c = .ok w' → w'.gone = w.gone ∧ c ≠ .obj j := by
      intro w' h
      simp only [FWorld.addItem, Except.bind_ok_iff, Except.map_ok_iff] at h
      obtain ⟨_, _, _, h1, _, _, rfl⟩ := h
      refine ⟨rfl, ?_⟩
      rintro rfl
      simp only [FWorld.hand, hg, if_true] at h1
      cases h1
    simp only [FWorld.addItems]
    cases h : w.addItem k c with
    | error e => exact ⟨e, rfl⟩
    | ok w' =>
      obtain ⟨h1, h2⟩ := hrun w' h
      refine FWorld.addItems_gone ((List.mem_cons.1 hc).resolve_left fun x => h2 x.symm) ?_
      rw [h1]; exact hg

/-- Other objects throw when they are used after `free()`; so does handing over any freed object, and a second
`free()`. -/
theorem C82_gone {ops : List FOp} {l : List JAnswer} {w : FWorld} (h : FWorld.run ops = .ok (l, w)) {j : Nat}
    (hj : .free j ∈ ops) :
    ((jmade (unfreed ops))[j]?.bind Spec.JOp.kept = none →
      FWorld.run (ops ++ [.js (.source j)]) = .error (.js .moved) ∧
      FWorld.run (ops ++ [.js (.size j)]) = .error (.js .moved)) ∧
    ((∀ v, (jmade (unfreed ops))[j]? ≠ some (.newRaw v)) → ∀ c m,
      FWorld.run (ops ++ [.js (.sourceAndMap j c m)]) = .error (.js .moved)) ∧
    (∀ i, FWorld.run (ops ++ [.js (.add j i)]) = .error (.js .moved)) ∧
    (∀ a b t, FWorld.run (ops ++ [.js (.replace j a b t)]) = .error (.js .moved)) ∧
    (∀ a t, FWorld.run (ops ++ [.js (.insert j a t)]) = .error (.js .moved)) ∧
    (∀ p, FWorld.run (ops ++ [.js (.newPrefix p (.obj j))]) = .error .null) ∧
    FWorld.run (ops ++ [.js (.newReplace (.obj j))]) = .error .null ∧
    (∀ k, ∃ e, FWorld.run (ops ++ [.js (.add k (.obj j))]) = .error e) ∧
    (∀ cs, .obj j ∈ cs → ∃ e, FWorld.run (ops ++ [.js (.newConcat cs)]) = .error e) ∧
    FWorld.run (ops ++ [.free j]) = .error .null := by
  have hg : w.gone.contains j = true := by
    simpa using FWorld.runFrom_gone h j (.inr hj)
  have hu : w.use j = .error (.js .moved) := by simp only [FWorld.use, hg, if_true]
  have hh : w.hand (.obj j) = .error .null := by simp only [FWorld.hand, hg, if_true]
  have H := FWorld.run_held h
  refine ⟨fun hk => ?_, fun hr c m => ?_, fun i => ?_, fun a b t => ?_, fun a t => ?_, fun p => ?_, ?_, fun k => ?_,
    fun cs hc => ?_, ?_⟩
  · rw [← H.kept] at hk
    have ha : w.answers j = false := by simp [FWorld.answers, hk]
    rw [FWorld.run_then h, FWorld.run_then h]
    simp only [FOp.run, FWorld.check, ha, hu]
    exact ⟨rfl, rfl⟩
  · rw [FWorld.run_then h]
    simp only [FOp.run, FWorld.check]
    split
    · rename_i p v ho
      exact absurd (H.raw.1 ⟨_, ho, rfl⟩) (hr v)
    · rw [hu]; rfl
  · rw [FWorld.run_then h]
    simp only [FOp.run, FWorld.addItem, hu]
    rfl
  · rw [FWorld.run_then h]
    simp only [FOp.run, FWorld.check, hu]
    rfl
  · rw [FWorld.run_then h]
    simp only [FOp.run, FWorld.check, hu]
    rfl
  · rw [FWorld.run_then h]
    simp only [FOp.run, FWorld.check, hh]
    rfl
  · rw [FWorld.run_then h]
    simp only [FOp.run, FWorld.check, hh]
    rfl
  · rw [FWorld.run_then h]
    obtain ⟨e, he⟩ := FWorld.addItems_gone (k := k) (cs := [.obj j]) (by simp) hg
    simp only [FWorld.addItems] at he
    simp only [FOp.run]
    cases hx : w.addItem k (.obj j) with
    | error e => exact ⟨e, rfl⟩
    | ok w' => rw [hx] at he; cases he
  · rw [FWorld.run_then h]
    simp only [FOp.run]
    cases hx : w.base.create .newConcat (.concat []) with
    | error e => exact ⟨_, rfl⟩
    | ok b =>
      obtain ⟨e, he⟩ := FWorld.addItems_gone (w := { w with base := b }) (k := w.base.objs.length) hc hg
      simp only [liftErr, Except.bind, he]
      exact ⟨_, rfl⟩
  · have hlt := FWorld.runFrom_inside World.Held.empty (by simp [FWorld.empty]) h j (by simpa using hg)
    rw [FWorld.run_then h]
    simp only [FOp.run, List.getElem?_eq_getElem hlt]
    rw [if_pos hg]
    rfl

/-! ## Examples -/

/-- A program that frees what it does not use any more. -/
def c82Program : List FOp :=
  [.js (.newRaw "a\n".toList), .js (.newRaw "b".toList), .js (.newOriginal "c\n".toList "f.js".toList),
    .js (.newConcat [.obj 0, .obj 2]), .free 0, .free 2, .js (.source 3), .js (.newReplace (.obj 3)), .free 3,
    .js (.replace 4 0 0 "zz".toList), .js (.hash 4), .js (.source 0), .js (.size 2),
    .js (.sourceAndMap 4 true true), .free 4, .js (.get 0 .mappings), .js (.newPrefix "p".toList (.obj 1)),
    .free 1, .js (.source 5)]

example : Careful [] [] c82Program := by
  simp [c82Program, Careful, jmade, Spec.JOp.makes, Spec.JOp.Needs, Spec.JOp.kept, List.filter_cons]
  constructor <;> intro v i hv h <;> subst hv <;> rcases i with _ | _ | _ | _ | _ | _ | i <;> simp at h ⊢

/-- Its results. -/
example : (FWorld.run c82Program).map Prod.fst = .ok [.done, .done, .done, .done, .text "a\nc\n".toList, .done, .done,
    .chunks ["zz\nc\n".toList], .text "a\n".toList, .size 2, .pair 0, .field (.text ";AAAA".toList), .done,
    .text "pb".toList] := by decide +kernel

/-- Objects that were freed in it: one keeps its value, the other does not. -/
example : (jmade (unfreed c82Program))[0]?.bind Spec.JOp.kept = some "a\n".toList ∧
    (jmade (unfreed c82Program))[3]?.bind Spec.JOp.kept = none ∧ (.free 0 ∈ c82Program) ∧ .free 3 ∈ c82Program := by
  decide +kernel

example : (FWorld.run (c82Program ++ [.js (.source 3)])).map Prod.fst = .error (.js .moved) := by decide +kernel

/-- Two `RawSource`s of one value; one is freed, the other one is used. -/
def c82Shared : List FOp :=
  [.js (.newRaw "a".toList), .js (.newRaw "a".toList), .free 0, .js (.newPrefix "x".toList (.obj 1)),
    .js (.source 2)]

/-- A `RawSource` made after one of the same value was freed. -/
def c82Again : List FOp :=
  [.js (.newRaw "a".toList), .free 0, .js (.newRaw "a".toList), .js (.newConcat [.obj 1]), .js (.source 2)]

/-- A freed `ReplaceSource` in an object whose hash is computed. -/
def c82Hash : List FOp :=
  [.js (.newReplace (.str "a".toList)), .js (.newConcat [.obj 0]), .free 0, .js (.source 1), .js (.hash 1)]

/-- Without the conditions on `RawSource`s and hashes the claim is false: freed memory is used, or an exception is
thrown, though no freed object is mentioned. -/
theorem C82_not_general :
    (Dropped [] [] c82Shared ∧ (FWorld.run c82Shared).map Prod.fst = .error .freed ∧
      returns World.empty (unfreed c82Shared) = .ok [.done, .done, .done, .text "xa".toList]) ∧
    (Dropped [] [] c82Again ∧ (FWorld.run c82Again).map Prod.fst = .error .freed ∧
      returns World.empty (unfreed c82Again) = .ok [.done, .done, .done, .text "a".toList]) ∧
    (Dropped [] [] c82Hash ∧ (FWorld.run c82Hash).map Prod.fst = .error (.js .moved) ∧
      returns World.empty (unfreed c82Hash) = .ok [.done, .done, .text "a".toList, .chunks ["a".toList]]) := by
  refine ⟨⟨?_, by decide +kernel, by decide +kernel⟩, ⟨?_, by decide +kernel, by decide +kernel⟩,
    ⟨?_, by decide +kernel, by decide +kernel⟩⟩ <;>
  simp [c82Shared, c82Again, c82Hash, Dropped, jmade, Spec.JOp.makes, Spec.JOp.Mentions, List.filter_cons]

/-- A program for `C82_memory_partial` that uses freed objects. -/
def c82Used : List FOp :=
  [.js (.newRaw "a".toList), .js (.newRaw "b".toList), .js (.newConcat [.obj 0, .obj 1]), .free 2, .free 0,
    .js (.source 0), .js (.newPrefix "p".toList (.obj 2))]

example : OneRaw (unfreed c82Used) ∧ (FWorld.run c82Used).map Prod.fst = .error .null := by
  refine ⟨?_, by decide +kernel⟩
  intro v i j
  simp only [c82Used, unfreed, jmade, Spec.JOp.makes, List.filter_cons, if_true, List.filter_nil]
  intro h1 h2
  rcases i with _ | _ | _ | _ | i <;> rcases j with _ | _ | _ | _ | j <;> simp at h1 h2 ⊢ <;> subst h1 <;> simp at h2

end WS
