import Verif.Model.Slm
import Verif.Proofs.Parse
/-! # Reading code and map into a list map -/

namespace WS
open Spec

/-- What a segment with these numbers does. -/
def segEffect (sources contents : List Int) (line : Str) (xs : List Int) (added : Bool) (st : LfState) :
    Bool × LfState :=
  match xs with
  | [] | [_] => (added, st)
  | _ :: s :: rest =>
    let st := { st with curSource := toUsize (s + st.curSource) }
    let st := match rest with | [] => st | l :: _ => { st with curLine := l + st.curLine }
    if added then (true, st)
    else (true, lfAddSource st line sources[st.curSource]? contents[st.curSource]? (toUsize st.curLine))

/-- Before the end or a comma. -/
def AtComma : Str → Prop
  | [] => True
  | c :: _ => c = ','

theorem skipToComma_all {x r : Str} (hx : ',' ∉ x) (hr : AtComma r) : skipToComma (x ++ r) = r := by
  unfold skipToComma
  induction x with
  | nil =>
    cases r with
    | nil => rfl
    | cons c r => simp only [AtComma] at hr; subst hr; rfl
  | cons c x ih =>
    simp only [List.mem_cons, not_or] at hx
    rw [List.cons_append, List.dropWhile_cons, if_pos (by simpa using Ne.symm hx.1), ih hx.2]

theorem head_ne_comma {x r : Str} {y : Int} {ys : List Int} (h : fields x = some (y :: ys)) :
    ∃ c t, x = c :: t ∧ c ≠ ',' := by
  cases x with
  | nil => cases h
  | cons c t =>
    refine ⟨c, t, rfl, ?_⟩
    have := (sep_of_fields h).1
    simp only [List.mem_cons, not_or] at this
    exact Ne.symm this.1

theorem lfSegment_eq {sources contents : List Int} {line : Str} {x r : Str} {y : Int} {ys : List Int}
    (h : fields x = some (y :: ys)) (hr : AtComma r) (added : Bool) (st : LfState) :
    lfSegment sources contents line added st (x ++ r) =
      .ok (if ys = [] then r.tail else r, segEffect sources contents line (y :: ys) added st) := by
  obtain ⟨c, t, rfl, hc⟩ := head_ne_comma (r := r) h
  obtain ⟨x1, f1, _, _, d1⟩ := vlqDecode_fields h
  unfold lfSegment
  rw [if_pos (by simpa using hc), d1 r]
  dsimp only
  cases ys with
  | nil =>
    have := fields_eq_nil f1
    subst this
    simp only [if_true, segEffect, List.nil_append]
    cases r with
    | nil => rfl
    | cons c r => simp only [AtComma] at hr; subst hr; simp
  | cons s ys =>
    obtain ⟨c1, t1, rfl, hc1⟩ := head_ne_comma (r := r) f1
    obtain ⟨x2, f2, _, _, d2⟩ := vlqDecode_fields f1
    simp only [List.cons_append, if_neg hc1]
    have d2' := d2 r
    rw [List.cons_append] at d2'
    rw [d2']
    dsimp only
    cases ys with
    | nil =>
      have := fields_eq_nil f2
      subst this
      have hno : ¬ (r ≠ [] ∧ r.head? ≠ some ',') := by
        cases r with
        | nil => simp
        | cons c r => simp only [AtComma] at hr; subst hr; simp
      rw [List.nil_append, if_neg hno]
      dsimp only
      have := skipToComma_all (x := []) (by simp) hr
      rw [List.nil_append] at this
      rw [this]
      simp only [segEffect, List.cons_ne_nil, if_false]
      cases added <;> rfl
    | cons l ys =>
      obtain ⟨c2, t2, rfl, hc2⟩ := head_ne_comma (r := r) f2
      obtain ⟨x3, f3, _, h3, d3⟩ := vlqDecode_fields f2
      rw [if_pos (by simpa using hc2), d3 r]
      dsimp only
      rw [skipToComma_all (sep_of_fields f3).1 hr]
      simp only [segEffect, List.cons_ne_nil, if_false]
      cases added <;> rfl

theorem lfSegments_comma {sources contents : List Int} {line : Str} (fuel : Nat) (added : Bool)
    (st : LfState) (r : Str) :
    lfSegments sources contents line (fuel + 1) added st (',' :: r) =
      lfSegments sources contents line fuel added st r := by
  rw [lfSegments]
  unfold lfSegment
  simp

theorem lfSegments_nil {sources contents : List Int} {line : Str} (fuel : Nat) (added : Bool) (st : LfState) :
    lfSegments sources contents line fuel added st [] = .ok (added, st) := by
  cases fuel <;> rfl

/-- All segments of a line. -/
def segsEffect (sources contents : List Int) (line : Str) : List (List Int) → Bool → LfState → Bool × LfState
  | [], added, st => (added, st)
  | xs :: xss, added, st =>
    segsEffect sources contents line xss (segEffect sources contents line xs added st).1
      (segEffect sources contents line xs added st).2

theorem lfSegments_eq {sources contents : List Int} {line : Str} : ∀ (x : Str) (xss : List (List Int))
    (fuel : Nat) (added : Bool) (st : LfState), x.length ≤ fuel → (cut ',' x).map fields = xss.map some →
    lfSegments sources contents line fuel added st x = .ok (segsEffect sources contents line xss added st) := by
  intro x
  induction x using piece_induction (p := ',') with
  | base x hx =>
    intro xss fuel added st hf h
    rw [cut_of_not_mem hx] at h
    obtain ⟨xs, rfl, hxs⟩ : ∃ xs, xss = [xs] ∧ fields x = some xs := by
      cases xss with
      | nil => simp at h
      | cons xs l =>
        simp only [List.map_cons, List.map_nil, List.cons.injEq] at h
        cases l with
        | nil => exact ⟨xs, rfl, h.1⟩
        | cons a b => simp at h
    cases x with
    | nil =>
      rw [fields_nil] at hxs
      cases hxs
      rw [lfSegments_nil]; rfl
    | cons c x =>
      cases xs with
      | nil => have := fields_eq_nil hxs; cases this
      | cons y ys =>
        obtain ⟨f, rfl⟩ : ∃ f, fuel = f + 1 := ⟨fuel - 1, by simp at hf; omega⟩
        have := lfSegment_eq (sources := sources) (contents := contents) (line := line) (r := []) hxs trivial added st
        rw [List.append_nil] at this
        rw [lfSegments, this]
        have e : (if ys = [] then ([] : Str).tail else []) = [] := by split <;> rfl
        rw [e]
        dsimp only
        rw [lfSegments_nil]; rfl
  | step y r hy ih =>
    intro xss fuel added st hf h
    rw [cut_append_sep hy] at h
    obtain ⟨xs, l, rfl, hxs, hl⟩ : ∃ xs l, xss = xs :: l ∧ fields y = some xs ∧ (cut ',' r).map fields = l.map some := by
      cases xss with
      | nil => simp at h
      | cons xs l =>
        simp only [List.map_cons, List.cons.injEq] at h
        exact ⟨xs, l, rfl, h.1, h.2⟩
    rw [List.length_append, List.length_cons] at hf
    cases y with
    | nil =>
      rw [fields_nil] at hxs
      cases hxs
      obtain ⟨f, rfl⟩ : ∃ f, fuel = f + 1 := ⟨fuel - 1, by omega⟩
      rw [List.nil_append, lfSegments_comma]
      exact ih l f added st (by simp at hf; omega) hl
    | cons c y =>
      cases xs with
      | nil => have := fields_eq_nil hxs; cases this
      | cons z zs =>
        rw [List.length_cons] at hf
        obtain ⟨f, rfl⟩ : ∃ f, fuel = f + 1 + 1 := ⟨fuel - 2, by omega⟩
        have := lfSegment_eq (sources := sources) (contents := contents) (line := line) (r := ',' :: r) hxs rfl added st
        rw [List.cons_append] at this ⊢
        rw [lfSegments, this]
        by_cases hz : zs = []
        · simp only [hz, if_true, List.tail_cons]
          exact ih l (f + 1) _ _ (by omega) hl
        · simp only [hz, if_false]
          rw [lfSegments_comma]
          exact ih l f _ _ (by omega) hl

/-- The text so far. -/
def LfState.text (st : LfState) : Str := (st.rev.reverse.map LNode.text).flatten

theorem lfAddCode_text (st : LfState) (code : Str) : (lfAddCode st code).text = st.text ++ code := by
  unfold lfAddCode LfState.text
  split
  · rename_i s rest e; simp [e, LNode.text]
  · rename_i n rest e
    split
    · simp [e, LNode.text, LSource.addCode]
    · simp [LNode.text]
  · simp [LNode.text]

theorem lfAddSource_text (st : LfState) (code : Str) (s o : Option Int) (l : Nat) :
    (lfAddSource st code s o l).text = st.text ++ code := by
  unfold lfAddSource LfState.text
  split
  · rename_i n rest e
    split
    · simp [e, LNode.text, LSource.addCode]
    · simp [LNode.text, LSource.new]
  · simp [LNode.text, LSource.new]

end WS
