import Verif.Props.C79
import Verif.Model.Wasm32
/-!
# Reading a line of any characters, with 32 bits

As in `Props/C79.lean`, of the functions of `Model/Wasm32.lean`.
-/

namespace WS
open Spec

/-- The effect of one segment. -/
def segEffect32 (sources contents : List Int) (line : Str) (xs : List Int) (added : Bool) (st : LfState) :
    Bool × LfState :=
  match xs with
  | [] | [_] => (added, st)
  | _ :: s :: rest =>
    let st := { st with curSource := toUsize (s + st.curSource) }
    let st := match rest with | [] => st | l :: _ => { st with curLine := l + st.curLine }
    if added then (true, st)
    else (true, lfAddSource32 st line sources[st.curSource]? contents[st.curSource]? (toUsize st.curLine))

theorem lfSegments32_comma {sources contents : List Int} {line : Str} (fuel : Nat) (added : Bool)
    (st : LfState) (r : Str) :
    lfSegments32 sources contents line (fuel + 1) added st (',' :: r) =
      lfSegments32 sources contents line fuel added st r := by
  rw [lfSegments32]
  unfold lfSegment32
  simp

theorem lfSegments32_nil {sources contents : List Int} {line : Str} (fuel : Nat) (added : Bool) (st : LfState) :
    lfSegments32 sources contents line fuel added st [] = .ok (added, st) := by
  cases fuel <;> rfl

/-- All segments of a line. -/
def segsEffect32 (sources contents : List Int) (line : Str) : List (List Int) → Bool → LfState → Bool × LfState
  | [], added, st => (added, st)
  | xs :: xss, added, st =>
    segsEffect32 sources contents line xss (segEffect32 sources contents line xs added st).1
      (segEffect32 sources contents line xs added st).2

theorem lfLines32_nil {ss contents : List Int} (st : LfState) : ∀ ms : List Str,
    lfLines32 ss contents st [] ms = .ok (st, [])
  | [] => rfl
  | m :: ms => by rw [lfLines32]; exact lfLines32_nil st ms

theorem lfAddSource32_put (st : LfState) (a : Int × Int) (line : Str) (s o : Option Int) (l : Nat) :
    put (lfAddSource32 st line s o l) a = lfAddSource32 (put st a) line s o l := by
  unfold lfAddSource32 put
  dsimp only
  split
  · split <;> rfl
  · rfl

theorem lfAddCode32_put (st : LfState) (a : Int × Int) (code : Str) :
    put (lfAddCode32 st code) a = lfAddCode32 (put st a) code := by
  unfold lfAddCode32 put
  dsimp only
  split
  · rfl
  · split <;> rfl
  · rfl

theorem segEffect32_put {sources contents : List Int} {line : Str} (st : LfState) (a : Int × Int) (xs : List Int) (added : Bool) :
    segEffect32 sources contents line xs added (put st a) =
      if 2 ≤ xs.length ∧ added = false then
        (true, lfAddSource32 (put st (summed a xs)) line sources[low (summed a xs).1]? contents[low (summed a xs).1]?
          (low (summed a xs).2))
      else (added, put st (summed a xs)) := by
  match xs with
  | [] => simp [segEffect32, summed]
  | [_] => simp [segEffect32, summed]
  | [c, d] =>
    have e : toUsize (d + (low a.1 : Int)) = low (a.1 + d) := low_low d a.1
    cases added <;> simp [segEffect32, summed, put, e, toUsize_low]
  | c :: d :: f :: r =>
    have e : toUsize (d + (low a.1 : Int)) = low (a.1 + d) := low_low d a.1
    cases added <;> simp [segEffect32, summed, put, e, toUsize_low, Int.add_comm f]

theorem segsEffect32_put {sources contents : List Int} {line : Str} : ∀ (xss : List (List Int)) (st : LfState)
    (a : Int × Int) (added : Bool), segsEffect32 sources contents line xss added (put st a) =
      match (if added then none else firstSums a xss) with
      | none => (added, put st (xss.foldl summed a))
      | some o => (true, lfAddSource32 (put st (xss.foldl summed a)) line sources[low o.1]? contents[low o.1]? (low o.2))
  | [], st, a, added => by cases added <;> rfl
  | xs :: xss, st, a, added => by
    rw [segsEffect32, segEffect32_put]
    cases added with
    | true =>
      simp only [Bool.true_eq_false, and_false, if_false, if_true, List.foldl_cons]
      rw [segsEffect32_put xss]
      simp
    | false =>
      simp only [and_true, Bool.false_eq_true, if_false, List.foldl_cons, firstSums]
      by_cases h : 2 ≤ xs.length
      · rw [if_pos h, if_pos h]
        dsimp only
        rw [← lfAddSource32_put, segsEffect32_put xss]
        simp only [if_true]
        rw [lfAddSource32_put]
      · rw [if_neg h, if_neg h]
        have e : summed a xs = a := by
          match xs with
          | [] | [_] => rfl
          | _ :: _ :: _ => simp at h
        dsimp only
        rw [segsEffect32_put xss, e]
        simp

/-- One segment. -/
theorem lfSegment32_any {sources contents : List Int} {line : Str} {c : Char} {t r : Str} (hx : ',' ∉ c :: t)
    (hr : AtComma r) (added : Bool) (st : LfState) :
    lfSegment32 sources contents line added st (c :: t ++ r) =
      match lead 3 (c :: t) with
      | none => .error .vlq
      | some xs => .ok (if xs.length ≤ 1 then r.tail else r, segEffect32 sources contents line xs added st) := by
  have hc : c ≠ ',' := fun h => hx (by simp [h])
  unfold lfSegment32
  rw [if_pos (by simpa using hc), vlqDecode_comma hr, lead]
  cases d1 : vlqDecode (c :: t) with
  | none => rfl
  | some p =>
    obtain ⟨v1, x1⟩ := p
    have hx1 := decode_suffix d1 hx
    dsimp only [Option.map_some]
    cases x1 with
    | nil =>
      simp only [lead, List.nil_append, Option.map_some, List.length_singleton, Nat.le_refl, if_true, segEffect32]
      cases r with
      | nil => rfl
      | cons c r => simp only [AtComma] at hr; subst hr; simp
    | cons c1 t1 =>
      have hc1 : c1 ≠ ',' := fun h => hx1 (by simp [h])
      simp only [List.cons_append, if_neg hc1]
      have d2' := vlqDecode_comma hr (c1 :: t1)
      rw [List.cons_append] at d2'
      rw [d2', lead]
      cases d2 : vlqDecode (c1 :: t1) with
      | none => rfl
      | some p =>
        obtain ⟨v2, x2⟩ := p
        have hx2 := decode_suffix d2 hx1
        dsimp only [Option.map_some]
        cases x2 with
        | nil =>
          have hno : ¬ (r ≠ [] ∧ r.head? ≠ some ',') := by
            cases r with
            | nil => simp
            | cons c r => simp only [AtComma] at hr; subst hr; simp
          rw [List.nil_append, if_neg hno]
          dsimp only
          have := skipToComma_all (x := []) (by simp) hr
          rw [List.nil_append] at this
          rw [this]
          simp only [lead, Option.map_some, List.length_cons, List.length_nil, segEffect32]
          cases added <;> rfl
        | cons c2 t2 =>
          have hc2 : c2 ≠ ',' := fun h => hx2 (by simp [h])
          rw [if_pos (by simpa using hc2), vlqDecode_comma hr, lead]
          cases d3 : vlqDecode (c2 :: t2) with
          | none => rfl
          | some p =>
            obtain ⟨v3, x3⟩ := p
            dsimp only [Option.map_some]
            rw [skipToComma_all (decode_suffix d3 hx2) hr]
            simp only [lead, Option.map_some, List.length_cons, List.length_nil, segEffect32]
            cases added <;> rfl

theorem lfSegments32_any {sources contents : List Int} {line : Str} : ∀ (x : Str) (fuel : Nat) (added : Bool)
    (st : LfState), x.length ≤ fuel → lfSegments32 sources contents line fuel added st x =
      match leads (cut ',' x) with
      | none => .error .vlq
      | some xss => .ok (segsEffect32 sources contents line xss added st) := by
  intro x
  induction x using piece_induction (p := ',') with
  | base x hx =>
    intro fuel added st hf
    rw [cut_of_not_mem hx]
    cases x with
    | nil => rw [lfSegments32_nil]; rfl
    | cons c x =>
      obtain ⟨f, rfl⟩ : ∃ f, fuel = f + 1 := ⟨fuel - 1, by simp at hf; omega⟩
      have := lfSegment32_any (sources := sources) (contents := contents) (line := line) (r := []) hx trivial added st
      rw [List.append_nil] at this
      rw [lfSegments32, this, leads]
      cases lead 3 (c :: x) with
      | none => rfl
      | some xs =>
        have e : (if xs.length ≤ 1 then ([] : Str).tail else []) = [] := by split <;> rfl
        dsimp only
        rw [e, lfSegments32_nil]; rfl
  | step y r hy ih =>
    intro fuel added st hf
    rw [cut_append_sep hy, leads]
    rw [List.length_append, List.length_cons] at hf
    cases y with
    | nil =>
      obtain ⟨f, rfl⟩ : ∃ f, fuel = f + 1 := ⟨fuel - 1, by omega⟩
      rw [List.nil_append, lfSegments32_comma, ih f added st (by simp at hf; omega)]
      simp only [lead]
      cases leads (cut ',' r) <;> rfl
    | cons c y =>
      rw [List.length_cons] at hf
      obtain ⟨f, rfl⟩ : ∃ f, fuel = f + 1 + 1 := ⟨fuel - 2, by omega⟩
      have := lfSegment32_any (sources := sources) (contents := contents) (line := line) (r := ',' :: r) hy rfl added st
      rw [List.cons_append] at this ⊢
      rw [lfSegments32, this]
      cases lead 3 (c :: y) with
      | none => rfl
      | some xs =>
        dsimp only
        by_cases hz : xs.length ≤ 1
        · simp only [hz, if_true, List.tail_cons]
          rw [ih (f + 1) _ _ (by omega)]
          cases leads (cut ',' r) <;> rfl
        · simp only [hz, if_false]
          rw [lfSegments32_comma, ih f _ _ (by omega)]
          cases leads (cut ',' r) <;> rfl

/-- One line, whatever its mappings. -/
theorem lfLine32_any {sources contents : List Int} (st : LfState) (line mp : Str) :
    lfLine32 sources contents st line mp =
      match leads (cut ',' mp) with
      | none => .error .vlq
      | some xss => .ok (if (segsEffect32 sources contents line xss false st).1 then
          (segsEffect32 sources contents line xss false st).2
        else lfAddCode32 (segsEffect32 sources contents line xss false st).2 line) := by
  unfold lfLine32
  by_cases hm : mp = []
  · subst hm; rfl
  · have hme : mp.isEmpty = false := by simpa using hm
    rw [hme, lfSegments32_any mp _ _ _ (Nat.le_refl _)]
    cases leads (cut ',' mp) <;> rfl

theorem lfLines32_reads {sources contents : List Int} : ∀ (ms ls : List Str) (st : LfState) {r : LfState × List Str},
    lfLines32 sources contents st ls ms = .ok r → ∃ n, Each (fun m xss => leads (cut ',' m) = some xss) (ms.take ls.length) n
  | [], ls, st, r, _ => ⟨[], by rw [List.take_nil]; exact .nil⟩
  | m :: ms, [], st, r, _ => ⟨[], .nil⟩
  | m :: ms, l :: ls, st, r, h => by
    rw [lfLines32, lfLine32_any] at h
    cases hm : leads (cut ',' m) with
    | none => rw [hm] at h; cases h
    | some xss =>
      rw [hm] at h
      obtain ⟨n, hn⟩ := lfLines32_reads ms ls _ h
      exact ⟨xss :: n, .cons hm hn⟩

end WS
