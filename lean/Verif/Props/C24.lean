import Verif.Model.Js
/-! # C24 Interned strings are stable -/

namespace WS

variable {α : Type} [DecidableEq α]

/-- Entries of `set` point at their string; strings in `set` are there once. -/
structure StrTable.Ok (t : StrTable α) : Prop where
  entries : ∀ s i, t.indexOf s = some i → t.array[i]? = some s

theorem StrTable.Ok.add {t : StrTable α} (h : t.Ok) (s : α) : (t.add s).2.Ok := by
  unfold StrTable.add
  cases hs : t.indexOf s with
  | some i => exact h
  | none =>
    refine ⟨fun x i hx => ?_⟩
    simp only [StrTable.indexOf, List.lookup_cons] at hx
    split at hx
    · rename_i he
      cases hx
      rw [eq_of_beq he]
      simp
    · have := h.entries x i hx
      have hlt : i < t.array.length := (List.getElem?_eq_some_iff.1 this).1
      rw [List.getElem?_append_left hlt]; exact this

theorem StrTable.Ok.addUnchecked {t : StrTable α} (h : t.Ok) (s : α) : (t.addUnchecked s).2.Ok := by
  refine ⟨fun x i hx => ?_⟩
  have := h.entries x i hx
  have hlt : i < t.array.length := (List.getElem?_eq_some_iff.1 this).1
  simp only [StrTable.addUnchecked]
  rw [List.getElem?_append_left hlt]; exact this

theorem StrTable.Ok.step {t : StrTable α} (h : t.Ok) (op : StrOp α) : (t.step op).2.Ok := by
  cases op with
  | add s => exact h.add s
  | addUnchecked s => exact h.addUnchecked s
  | clear => exact ⟨fun s i hi => by simp [StrTable.step, StrTable.clear, StrTable.indexOf] at hi⟩

theorem StrTable.Ok.run {t : StrTable α} (h : t.Ok) (ops : List (StrOp α)) : (t.run ops).Ok := by
  induction ops generalizing t with
  | nil => exact h
  | cons op ops ih => exact ih (h.step op)

theorem StrTable.empty_ok : (StrTable.empty : StrTable α).Ok :=
  ⟨fun s i hi => by simp [StrTable.empty, StrTable.indexOf] at hi⟩

theorem StrTable.run_append (t : StrTable α) (a b : List (StrOp α)) :
    t.run (a ++ b) = (t.run a).run b := by
  induction a generalizing t with
  | nil => rfl
  | cons op a ih => exact ih _

/-- Without `clear` the array only grows at its end. -/
theorem StrTable.run_grows (t : StrTable α) (ops : List (StrOp α)) (h : .clear ∉ ops) :
    ∃ r, (t.run ops).array = t.array ++ r := by
  induction ops generalizing t with
  | nil => exact ⟨[], by simp [StrTable.run]⟩
  | cons op ops ih =>
    simp only [List.mem_cons, not_or] at h
    obtain ⟨r, hr⟩ := ih (t.step op).2 h.2
    have h1 : ∃ r', (t.step op).2.array = t.array ++ r' := by
      cases op with
      | add s =>
        simp only [StrTable.step, StrTable.add]
        split
        · exact ⟨[], by simp⟩
        · exact ⟨[s], rfl⟩
      | addUnchecked s => exact ⟨[s], rfl⟩
      | clear => exact absurd rfl h.1
    obtain ⟨r', hr'⟩ := h1
    exact ⟨r' ++ r, by rw [StrTable.run, hr, hr', List.append_assoc]⟩

theorem StrTable.run_indexOf {t : StrTable α} (ops : List (StrOp α)) (h : .clear ∉ ops) {s : α}
    {i : Nat} (hs : t.indexOf s = some i) : (t.run ops).indexOf s = some i := by
  induction ops generalizing t with
  | nil => exact hs
  | cons op ops ih =>
    simp only [List.mem_cons, not_or] at h
    refine ih h.2 ?_
    cases op with
    | add x =>
      simp only [StrTable.step, StrTable.add]
      split
      · exact hs
      · rename_i hx
        simp only [StrTable.indexOf, List.lookup_cons]
        split
        · rename_i he
          have he : s = x := eq_of_beq he
          subst he
          rw [hs] at hx; cases hx
        · exact hs
    | addUnchecked x => exact hs
    | clear => exact absurd rfl h.1

theorem StrTable.add_at {t : StrTable α} (h : t.Ok) (s : α) :
    (t.add s).2.array[(t.add s).1]? = some s := by
  cases hs : t.indexOf s with
  | some i => simp only [StrTable.add, hs]; exact h.entries s i hs
  | none => simp only [StrTable.add, hs]; simp

theorem StrTable.add_indexOf (t : StrTable α) (s : α) :
    (t.add s).2.indexOf s = some (t.add s).1 := by
  cases hs : t.indexOf s with
  | some i => simp only [StrTable.add, hs]
  | none =>
    simp only [StrTable.add, hs]
    simp [StrTable.indexOf]

/-- The string a call stores. -/
def StrOp.string : StrOp α → Option α
  | .add s => some s
  | .addUnchecked s => some s
  | .clear => none

/-- Whatever happened before (clearing included) and whatever is added afterwards: the index returned
by `add` or `addUnchecked` for a string gives that string, as long as the table is not cleared. -/
theorem C24_stable (before after : List (StrOp α)) (op : StrOp α) (s : α) (i : Nat)
    (hs : op.string = some s) (hi : ((StrTable.empty.run before).step op).1 = some i)
    (hc : .clear ∉ after) :
    (StrTable.empty.run (before ++ op :: after)).at i = some (some s) := by
  have hok := StrTable.empty_ok.run before
  rw [StrTable.run_append, StrTable.run]
  generalize StrTable.empty.run before = t at *
  obtain ⟨r, hr⟩ := (t.step op).2.run_grows after hc
  have h1 : (t.step op).2.array[i]? = some s := by
    cases op with
    | add x =>
      cases hs
      have hi : (t.add s).1 = i := Option.some.inj hi
      rw [← hi]
      exact StrTable.add_at hok s
    | addUnchecked x =>
      cases hs
      have hi : (t.addUnchecked s).1 = i := Option.some.inj hi
      rw [← hi]
      simp [StrTable.step, StrTable.addUnchecked]
    | clear => cases hs
  have hlt : i < (t.step op).2.array.length := (List.getElem?_eq_some_iff.1 h1).1
  have h2 : ((t.step op).2.run after).array[i]? = some s := by
    rw [hr, List.getElem?_append_left hlt]; exact h1
  rw [StrTable.at, if_neg (by omega), Int.toNat_natCast, h2]

/-- Two `add` calls with no clearing between them return the same index exactly for equal strings. -/
theorem C24_injective (before between : List (StrOp α)) (s s' : α) (i j : Nat)
    (hc : .clear ∉ between)
    (hi : ((StrTable.empty.run before).step (.add s)).1 = some i)
    (hj : ((StrTable.empty.run (before ++ .add s :: between)).step (.add s')).1 = some j) :
    i = j ↔ s = s' := by
  have hs := C24_stable before between (.add s) s i rfl hi hc
  have hok : (StrTable.empty.run (before ++ .add s :: between)).Ok := StrTable.empty_ok.run _
  have hidx : (StrTable.empty.run (before ++ .add s :: between)).indexOf s = some i := by
    rw [StrTable.run_append, StrTable.run]
    refine StrTable.run_indexOf between hc ?_
    have h := (StrTable.empty.run before).add_indexOf s
    have hi : ((StrTable.empty.run before).add s).1 = i := Option.some.inj hi
    rw [hi] at h
    exact h
  generalize StrTable.empty.run (before ++ .add s :: between) = t at *
  have hj : (t.add s').1 = j := Option.some.inj hj
  constructor
  · rintro rfl
    have h1 := StrTable.add_at hok s'
    rw [hj] at h1
    have h2 := hok.entries s i hidx
    have h3 : (t.add s').2.array[i]? = some s := by
      simp only [StrTable.add]
      split
      · exact h2
      · have hlt : i < t.array.length := (List.getElem?_eq_some_iff.1 h2).1
        rw [List.getElem?_append_left hlt]; exact h2
    rw [h3] at h1
    exact Option.some.inj h1
  · rintro rfl
    simp only [StrTable.add, hidx] at hj
    exact hj

omit [DecidableEq α] in
/-- Negative indices give `null`; an index is an exception exactly when it is not smaller than the
number of entries. -/
theorem C24_at (t : StrTable α) (i : Int) :
    (i < 0 → t.at i = some none) ∧ (t.at i = none ↔ (t.array.length : Int) ≤ i) := by
  refine ⟨fun h => by rw [StrTable.at, if_pos h], ?_⟩
  rw [StrTable.at]
  split
  · simp only [reduceCtorEq, false_iff]; omega
  · split
    · rename_i h
      have := (List.getElem?_eq_some_iff.1 h).1
      simp only [reduceCtorEq, false_iff]; omega
    · rename_i h
      have := List.getElem?_eq_none_iff.1 h
      simp only [true_iff]; omega

omit [DecidableEq α] in
/-- `resolveIntArray` is `at` on every element, and fails if one of them fails. -/
theorem C24_resolve (t : StrTable α) (is : List Int) (ss : List (Option α)) :
    t.resolve is = some ss ↔ is.map t.at = ss.map some := by
  induction is generalizing ss with
  | nil => cases ss <;> simp [StrTable.resolve]
  | cons i is ih =>
    simp only [StrTable.resolve, List.map_cons]
    cases h : t.at i with
    | none => cases ss <;> simp
    | some s =>
      cases ss with
      | nil => simp
      | cons s' ss =>
        simp only [Option.map_eq_some_iff, List.cons.injEq, List.map_cons, Option.some.injEq]
        constructor
        · rintro ⟨a, h1, h2, rfl⟩
          exact ⟨h2, (ih _).1 h1⟩
        · rintro ⟨h1, h2⟩
          exact ⟨ss, (ih _).2 h2, h1, rfl⟩

/-! Cases: an equal string added before without a check; clearing makes indices dangle. -/

example : ((StrTable.empty.run [.addUnchecked "a", .add "b", .add "a"]).step (.add "a")).1 = some 2 ∧
    (StrTable.empty.run [.addUnchecked "a", .add "b", .add "a", .add "c"]).at 2 = some (some "a") ∧
    (StrTable.empty.run [.addUnchecked "a", .add "b", .add "a", .add "c"]).at 0 = some (some "a") ∧
    (StrTable.empty.run [.addUnchecked "a", .add "b"]).at (-1) = some none := by decide

/-- The condition on clearing is needed: an index kept across `clear` is an exception or gives another
string. -/
theorem C24_clear :
    (StrTable.empty.run [.add "a", .clear]).at 0 = none ∧
    (StrTable.empty.run [.add "a", .clear, .add "b"]).at 0 = some (some "b") := by decide

end WS
