import Verif.Proofs.ListRead
import Verif.Props.C42
/-! # C13 Reading code plus map into a list map loses no text -/

namespace WS
open Spec

theorem LfState.text_of_rev {a b : LfState} (h : a.rev = b.rev) : a.text = b.text := by
  unfold LfState.text; rw [h]

theorem lfSegments_text {sources contents : List Int} {line : Str} : ∀ (fuel : Nat) (added : Bool)
    (st : LfState) (s : Str) {a : Bool} {st' : LfState},
    lfSegments sources contents line fuel added st s = .ok (a, st') →
    (a = added ∧ st'.text = st.text) ∨ (added = false ∧ a = true ∧ st'.text = st.text ++ line)
  | fuel, added, st, [], a, st', h => by
    rw [lfSegments_nil] at h; cases h; exact .inl ⟨rfl, rfl⟩
  | 0, added, st, c :: cs, a, st', h => by cases h
  | fuel + 1, added, st, c :: cs, a, st', h => by
    rw [lfSegments] at h
    split at h
    · cases h
    · rename_i r a1 st1 e
      have ih := lfSegments_text fuel _ _ _ h
      rcases lfSegment_rev e with ⟨h1, h2, _⟩ | ⟨h1, h2, st0, h3, _, _, _, h4⟩
      · rw [h1, LfState.text_of_rev h2] at ih; exact ih
      · have ht : st1.text = st.text ++ line := by rw [h4, lfAddSource_text, LfState.text_of_rev h3]
        rcases ih with ⟨i1, i2⟩ | ⟨i1, _⟩
        · exact .inr ⟨h1, i1.trans h2, by rw [i2, ht]⟩
        · rw [h2] at i1; cases i1

theorem lfLine_text {sources contents : List Int} {st st' : LfState} {line mp : Str}
    (h : lfLine sources contents st line mp = .ok st') : st'.text = st.text ++ line := by
  unfold lfLine at h
  split at h
  · cases h; exact lfAddCode_text _ _
  · split at h
    · cases h
    · rename_i a st1 e
      have := lfSegments_text _ _ _ _ e
      cases h
      rcases this with ⟨h1, h2⟩ | ⟨_, h1, h2⟩
      · subst h1; simp only [Bool.false_eq_true, if_false]; rw [lfAddCode_text, h2]
      · subst h1; simp only [if_true]; exact h2

theorem lfLines_text {sources contents : List Int} : ∀ (ms : List Str) (st : LfState) (ls : List Str)
    {st' : LfState} {rest : List Str}, lfLines sources contents st ls ms = .ok (st', rest) →
    st'.text ++ rest.flatten = st.text ++ ls.flatten
  | [], st, ls, st', rest, h => by
    have : lfLines sources contents st ls [] = .ok (st, ls) := by cases ls <;> rfl
    rw [this] at h; cases h; rfl
  | m :: ms, st, [], st', rest, h => by
    rw [lfLines] at h
    exact lfLines_text ms st [] h
  | m :: ms, st, l :: ls, st', rest, h => by
    rw [lfLines] at h
    split at h
    · cases h
    · rename_i st1 e
      rw [lfLines_text ms st1 ls h, lfLine_text e, List.flatten_cons, List.append_assoc]

theorem lfRest_text : ∀ (ls : List Str) (st : LfState), (lfRest st ls).text = st.text ++ ls.flatten
  | [], st => by simp [lfRest]
  | l :: ls, st => by
    rw [lfRest]
    split
    · rw [lfRest_text ls, lfAddCode_text, List.flatten_cons, List.append_assoc]
    · rw [lfAddCode_text, List.flatten_cons]

theorem readSegs_fields {l : Nat} : ∀ {ss : List Str} {a : Acc} {y : List Seg} {b : Acc},
    readSegs l a ss = some (y, b) → ∃ xss : List (List Int), ss.map fields = xss.map some
  | [], _, _, _, _ => ⟨[], rfl⟩
  | s :: ss, a, y, b, h => by
    rw [readSegs] at h
    split at h
    · cases h
    · rename_i x a1 e
      split at h
      · cases h
      · rename_i z a2 e2
        obtain ⟨xss, hx⟩ := readSegs_fields e2
        have : ∃ xs, fields s = some xs := by
          unfold readSeg at e
          cases hf : fields s with
          | none => rw [hf] at e; cases e
          | some xs => exact ⟨xs, rfl⟩
        obtain ⟨xs, hf⟩ := this
        exact ⟨xs :: xss, by simp [hf, hx]⟩

theorem lfLine_total {sources contents : List Int} (st : LfState) (line : Str) {mp : Str} {l : Nat} {a b : Acc}
    {y : List Seg} (h : readSegs l a (cut ',' mp) = some (y, b)) :
    ∃ st', lfLine sources contents st line mp = .ok st' := by
  unfold lfLine
  split
  · exact ⟨_, rfl⟩
  · obtain ⟨xss, hx⟩ := readSegs_fields h
    rw [lfSegments_eq mp xss mp.length false st (Nat.le_refl _) hx]
    exact ⟨_, rfl⟩

theorem lfLines_total {sources contents : List Int} : ∀ (ms : List Str) (st : LfState) (ls : List Str) {l : Nat}
    {a : Acc} {y : List Seg}, readLines l a ms = some y →
    ∃ st' rest, lfLines sources contents st ls ms = .ok (st', rest)
  | [], st, ls, l, a, y, _ => by cases ls <;> exact ⟨_, _, rfl⟩
  | m :: ms, st, ls, l, a, y, h => by
    rw [readLines] at h
    split at h
    · cases h
    · rename_i x a1 e
      split at h
      · cases h
      · rename_i z e2
        cases ls with
        | nil => rw [lfLines]; exact lfLines_total ms st [] e2
        | cons k ls =>
          obtain ⟨st1, h1⟩ := lfLine_total (sources := sources) (contents := contents) st k e
          rw [lfLines, h1]
          exact lfLines_total ms st1 ls e2

/-- C13: whatever is read is rendered as the code it came from; and a well-formed mappings string is
read, whatever the arrays. -/
theorem C13_text (code : Str) (sources contents : List Int) (mappings : Str) :
    (∀ m, slmFromString code sources contents mappings = .ok m →
      ∀ file, (slmToStringWithSourceMap m file).source = code) ∧
    (∀ y, decode mappings = some y → ∃ m, slmFromString code sources contents mappings = .ok m) := by
  constructor
  · intro m h file
    unfold slmFromString at h
    split at h
    · cases h
    · rename_i st rest e
      cases h
      have h1 := lfLines_text _ _ _ e
      have h2 := lfRest_text rest st
      rw [h1, splitKeep_flatten] at h2
      exact h2
  · intro y h
    unfold decode at h
    rw [cut_eq] at h
    obtain ⟨st, rest, e⟩ := lfLines_total (sources := sources) (contents := contents) (splitDrop ';' mappings)
      { rev := [], curLine := 1, curSource := 0, nodeLine := 0 } (splitKeep '\n' code) h
    exact ⟨_, by unfold slmFromString; rw [e]⟩

/-! Non-trivial case: fewer, and more, mapping lines than lines. -/

example : (slmFromString "a\nb\n \n\nc\n".toList [5] [] "AAAA,CACA;;A".toList).toOption.map slmText =
    some "a\nb\n \n\nc\n".toList := by decide +kernel
example : (slmFromString "a".toList [5] [] "A,CAAA;AACA;AACA".toList).toOption.map slmText =
    some "a".toList := by decide +kernel
example : (decode "AAAA,CACA;;A".toList).isSome = true := by decide +kernel

end WS
