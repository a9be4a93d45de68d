import Verif.Model.MapFns
import Verif.Proofs.ListText
/-! # C43 The prefix function of list maps indents every line -/

namespace WS
open Spec

theorem wasmPrefixLoop_eq (p : Str) (n : Nat) : ∀ (s : Str) (i : Nat), '\n' ∈ s →
    i + (splitDrop '\n' s).length = n →
    wasmPrefixLoop p n i (splitDrop '\n' s) = indentRest p s := by
  intro s
  induction s using piece_induction (p := '\n') with
  | base s hs => intro i h; exact absurd h hs
  | step x r hx ih =>
    intro i _ hn
    rw [splitDrop_append_sep hx] at hn ⊢
    rw [indentRest_line p r hx, wasmPrefixLoop]
    rw [List.length_cons] at hn
    by_cases hr : '\n' ∈ r
    · have hlen : 2 ≤ (splitDrop '\n' r).length := by
        rcases first_sep '\n' r with h | ⟨y, q, rfl, hy⟩
        · exact absurd hr h
        · rw [splitDrop_append_sep hy, List.length_cons]
          have := List.length_pos_iff.2 (splitDrop_ne_nil '\n' q)
          omega
      rw [if_neg (by omega), if_neg (by omega), ih (i + 1) hr (by omega), if_pos (by
        rintro rfl; simp at hr)]
      simp
    · rw [splitDrop_of_not_mem hr] at hn ⊢
      simp only [List.length_singleton] at hn
      rw [if_pos (by omega), wasmPrefixLoop, if_neg (by omega), if_pos (by omega), wasmPrefixLoop,
        indentRest_of_not_mem p hr]
      cases r <;> simp

/-- Code with a newline: the function puts the prefix in front of every line, as `PrefixSource` does. -/
theorem C43_indent_partial (p c : Str) (h : '\n' ∈ c) : wasmPrefix p c = indent p c := by
  rw [wasmPrefix, wasmPrefixLoop_eq p _ c 0 h (by omega), indent]

/-- Code without a newline: a line with nothing but the prefix comes in front of it. -/
theorem C43_single_line (p c : Str) (h : '\n' ∉ c) :
    wasmPrefix p c = p ++ '\n' :: (if c = [] then [] else p ++ c) := by
  rw [wasmPrefix, splitDrop_of_not_mem h]
  simp only [List.length_singleton, wasmPrefixLoop]
  cases c <;> simp

/-- So the condition is needed, and it is exact for texts that are not empty. -/
theorem C43_exact (p c : Str) (hc : c ≠ []) : wasmPrefix p c = indent p c ↔ '\n' ∈ c := by
  refine ⟨fun h => ?_, C43_indent_partial p c⟩
  refine Classical.byContradiction fun hn => ?_
  rw [C43_single_line p c hn, if_neg hc, indent, indentRest_of_not_mem p hn] at h
  have := congrArg List.length h
  simp at this
  omega

/-- The condition on a list map: its pieces are whole lines with their newlines. -/
def Spec.FullLines (m : Slm) : Prop :=
  (∀ n ∈ m, n.Merged) ∧ Aligned (normCodes m) ∧ ∀ c ∈ normCodes m, '\n' ∈ c

/-- A list map whose pieces are whole lines: the text of the rewritten map is the indented text.
Full statement: for every list map; false for a last line without newline, `C43_not_general`. -/
theorem C43_map_partial (p : Str) (m : Slm) (h : FullLines m) :
    slmText (wasmPrefixMap p m) = indent p (slmText m) := by
  obtain ⟨h1, h2, h3⟩ := h
  have run : ∀ (cs : List Str) (u : Unit), (∀ c ∈ cs, '\n' ∈ c) →
      (runCodes (fun (_ : Unit) s => (wasmPrefix p s, ())) u cs).1 = (cs.map (indent p)).flatten := by
    intro cs
    induction cs with
    | nil => intro _ _; rfl
    | cons c cs ih =>
      intro u hc
      rw [runCodes, List.map_cons, List.flatten_cons, ih () (fun d hd => hc d (List.mem_cons_of_mem _ hd))]
      simp only [C43_indent_partial p c (hc c (List.mem_cons_self ..))]
  rw [wasmPrefixMap, (mapGenerated_text _ _ _).1, run _ _ h3, aligned_indent p _ (.inr h2),
    normCodes_flatten h1]

/-- A map of two lines from a source and a line of plain code. -/
def C43_map : Slm := [.source (LSource.new "a\nb\n".toList (some 3) (some 4) 1), .code "c\n".toList]

example : FullLines C43_map := by
  refine ⟨?_, ?_, ?_⟩
  · intro n hn
    simp only [C43_map, List.mem_cons, List.not_mem_nil, or_false] at hn
    rcases hn with rfl | rfl
    · exact ⟨by decide, by decide⟩
    · trivial
  · exact ⟨by decide, by decide, by decide, by decide, trivial⟩
  · decide

example : slmText (wasmPrefixMap "> ".toList C43_map) = "> a\n> b\n> c\n".toList := by decide +kernel

/-- A last line without newline gets an additional line in front. -/
theorem C43_not_general :
    slmText (wasmPrefixMap "> ".toList [.code "a".toList]) = "> \n> a".toList ∧
    indent "> ".toList (slmText [.code "a".toList]) = "> a".toList := by decide +kernel

end WS
