import Verif.Model.JsList
import Verif.Proofs.ListText
import Verif.Proofs.LineWise
import Verif.Props.C44
/-!
# C72: the rewriting functions of `SourceListMap.mapGeneratedCode` and the text

Claim: `mapGeneratedCode("test")` has as text the text of the list map in which lines are ended at every semicolon, a
line that ends in a backslash is joined to the next one by a space, and then a line that ends in a dollar sign is joined
to the next one without anything between them; `mapGeneratedCode("identical")` keeps the text.
-/

namespace WS
open Spec

/-! ## Spec -/

/-- The lines put together again; a line that ends in `a` loses it and is joined to the next one by `glue`. -/
def Spec.rejoin (a : Char) (glue : List Char) : List (List Char) → List Char
  | [] => []
  | [l] => l
  | l :: ls => if l.getLast? = some a then l.dropLast ++ (glue ++ rejoin a glue ls) else l ++ '\n' :: rejoin a glue ls

/-- What the function for tests makes of a text. -/
def Spec.testRewrite (s : List Char) : List Char :=
  rejoin '$' [] (cut '\n' (rejoin '\\' [' '] (cut '\n' (s.map fun c => if c = ';' then '\n' else c))))

/-! ## Pairs -/

theorem replacePair_append {a b : Char} {g : Str} : ∀ {x y : Str}, ¬ (x.getLast? = some a ∧ y.head? = some b) →
    replacePair a b g (x ++ y) = replacePair a b g x ++ replacePair a b g y
  | [], _, _ => by simp [replacePair]
  | [c], [], _ => by simp [replacePair]
  | [c], d :: y, h => by
    have : ¬ (c = a ∧ d = b) := by simpa using h
    simp [replacePair, this]
  | c :: d :: x, y, h => by
    simp only [List.cons_append]
    rw [replacePair, replacePair]
    split
    · rename_i hc
      by_cases hx : x = []
      · subst hx; simp [replacePair]
      · have hl : ¬ (x.getLast? = some a ∧ y.head? = some b) := by
          rw [List.getLast?_cons_cons, List.getLast?_cons] at h
          rw [List.getLast?_eq_some_getLast hx] at h ⊢
          exact h
        rw [replacePair_append hl, List.append_assoc]
    · have hl : ¬ ((d :: x).getLast? = some a ∧ y.head? = some b) := by
        rw [List.getLast?_cons_cons] at h; exact h
      have := replacePair_append (g := g) hl
      simp only [List.cons_append] at this
      rw [this, List.cons_append]

theorem replacePair_free {a b : Char} {g : Str} : ∀ {x : Str}, b ∉ x → replacePair a b g x = x
  | [], _ => rfl
  | [_], _ => rfl
  | c :: d :: x, h => by
    have hd : ¬ d = b := fun e => h (by simp [e])
    rw [replacePair, if_neg (fun e => hd e.2), replacePair_free (fun e => h (List.mem_cons_of_mem _ e))]

theorem cut_free {p : Char} : ∀ {x : Str}, p ∉ x → cut p x = [x]
  | [], _ => rfl
  | c :: x, h => by
    have hc : ¬ c = p := fun e => h (by simp [e])
    rw [cut, if_neg hc, cut_free (fun e => h (List.mem_cons_of_mem _ e))]

theorem cut_sep {p : Char} : ∀ {x y : Str}, p ∉ x → cut p (x ++ p :: y) = x :: cut p y
  | [], y, _ => by rw [List.nil_append, cut, if_pos rfl]
  | c :: x, y, h => by
    have hc : ¬ c = p := fun e => h (by simp [e])
    rw [List.cons_append, cut, if_neg hc, cut_sep (fun e => h (List.mem_cons_of_mem _ e))]

theorem cut_some (p : Char) (s : Str) : ∃ l ls, cut p s = l :: ls := by
  induction s with
  | nil => exact ⟨_, _, rfl⟩
  | cons c s ih =>
    obtain ⟨l, ls, e⟩ := ih
    rw [cut, e]
    split <;> exact ⟨_, _, rfl⟩

/-- Replacing the pairs of a character and a newline joins lines. -/
theorem replacePair_lines {a : Char} (ha : a ≠ '\n') (g : Str) (s : Str) :
    replacePair a '\n' g s = rejoin a g (cut '\n' s) := by
  induction s using piece_induction (p := '\n') with
  | base s hs => rw [replacePair_free hs, cut_free hs]; rfl
  | step x r hx ih =>
    obtain ⟨l, ls, e⟩ := cut_some '\n' r
    rw [cut_sep hx, e, rejoin, ← e, ← ih]
    · split
      · rename_i hl
        obtain ⟨y, rfl⟩ : ∃ y, x = y ++ [a] := by
          obtain ⟨y, hy⟩ := List.getLast?_eq_some_iff.1 hl
          exact ⟨y, hy⟩
        have hy : '\n' ∉ y := fun h => hx (by simp [h])
        have h1 : replacePair a '\n' g (y ++ [a] ++ '\n' :: r) = y ++ replacePair a '\n' g (a :: '\n' :: r) := by
          rw [List.append_assoc, replacePair_append (fun h => ha (by simpa using h.2)), replacePair_free hy]
          rfl
        rw [h1, List.dropLast_concat, replacePair, if_pos ⟨rfl, rfl⟩]
      · rename_i hl
        rw [replacePair_append (fun h => hl h.1), replacePair_free hx]
        have h3 : replacePair a '\n' g ('\n' :: r) = '\n' :: replacePair a '\n' g r := by
          rw [show ('\n' :: r) = ['\n'] ++ r from rfl,
            replacePair_append (fun h => ha (by have := h.1; simp at this; exact this.symm))]
          rfl
        rw [h3]
    · intro h; cases h

/-- **C72 (function).** -/
theorem C72_function (s : Str) : wasmTest s = testRewrite s := by
  unfold wasmTest testRewrite
  rw [replacePair_lines (by decide), replacePair_lines (by decide)]
  rfl

/-! ## List maps -/

theorem replacePair_last {a b : Char} {g : Str} (hb : b ≠ a) : ∀ {x : Str}, x.getLast? = some b →
    (replacePair a b g x).getLast? = some b ∨ (replacePair a b g x).getLast? = g.getLast? ∨ g = []
  | [], h => by cases h
  | [c], h => .inl h
  | [c, d], h => by
    have hd : d = b := by simpa using h
    subst hd
    rw [replacePair]
    split
    · by_cases hg : g = []
      · exact .inr (.inr hg)
      · exact .inr (.inl (by simp [replacePair]))
    · exact .inl (by simp [replacePair])
  | c :: d :: e :: x, h => by
    rw [replacePair]
    have ne : ∀ y : Str, y.getLast? = some b → y ≠ [] := by rintro _ h rfl; cases h
    have keep : ∀ (u v : Str), v ≠ [] → (u ++ v).getLast? = v.getLast? := by
      intro u v hv
      rw [List.getLast?_append, List.getLast?_eq_some_getLast hv]; rfl
    split
    · have h' : (e :: x).getLast? = some b := by simpa [List.getLast?_cons_cons] using h
      rcases replacePair_last (g := g) hb h' with k | k | k
      · exact .inl (by rw [keep _ _ (ne _ k)]; exact k)
      · by_cases hg : g = []
        · exact .inr (.inr hg)
        · refine .inr (.inl ?_)
          rw [keep _ _ ?_, k]
          intro hn
          rw [hn, List.getLast?_eq_some_getLast hg] at k
          cases k
      · exact .inr (.inr k)
    · have h' : (d :: e :: x).getLast? = some b := by simpa [List.getLast?_cons_cons] using h
      rcases replacePair_last (g := g) hb h' with k | k | k
      · exact .inl (by rw [← List.singleton_append, keep _ _ (ne _ k)]; exact k)
      · by_cases hg : g = []
        · exact .inr (.inr hg)
        · refine .inr (.inl ?_)
          rw [← List.singleton_append, keep _ _ ?_, k]
          intro hn
          rw [hn, List.getLast?_eq_some_getLast hg] at k
          cases k
      · exact .inr (.inr k)

/-- Whole lines are rewritten one by one. -/
theorem wasmTest_append {x y : Str} (h : x.getLast? = some '\n') : wasmTest (x ++ y) = wasmTest x ++ wasmTest y := by
  unfold wasmTest
  have hm : replaceChar ';' '\n' (x ++ y) = replaceChar ';' '\n' x ++ replaceChar ';' '\n' y := List.map_append
  have hl : (replaceChar ';' '\n' x).getLast? = some '\n' := by
    unfold replaceChar; rw [List.getLast?_map, h]; rfl
  rw [hm, replacePair_append (fun e => by rw [hl] at e; exact absurd e.1 (by decide)), replacePair_append]
  intro e
  rcases replacePair_last (a := '\\') (g := [' ']) (by decide) hl with k | k | k
  · rw [k] at e; exact absurd e.1 (by decide)
  · rw [k] at e; exact absurd e.1 (by decide)
  · cases k

theorem runCodes_test : ∀ {cs : List Str} (u : Unit), Aligned cs →
    (runCodes (fun (_ : Unit) s => (wasmTest s, ())) u cs).1 = wasmTest cs.flatten
  | [], _, h => h.elim
  | [c], u, _ => by simp [runCodes]
  | c :: d :: cs, u, h => by
    rw [runCodes, runCodes_test (cs := d :: cs) () h.2.2, List.flatten_cons (l := c), wasmTest_append h.1]

/-- **C72 (test), partial.** List maps whose pieces are whole lines. Missing: list maps with a piece that ends inside a
line (false, `C72_not_general`). -/
theorem C72_test_partial {m m' : Slm} (hm : ∀ n ∈ m, n.Merged) (ha : Aligned (normCodes m))
    (h : MapFn.apply .test m = some m') : slmText m' = testRewrite (slmText m) := by
  cases h
  rw [(mapGenerated_text _ _ _).1, runCodes_test () ha, normCodes_flatten hm, C72_function]

/-- A line that goes over two nodes. -/
theorem C72_not_general : ∃ m', MapFn.apply .test [.code "a$".toList, .source (LSource.new "\nb".toList (some 1) none 1)] =
      some m' ∧ slmText m' = "a$\nb".toList ∧ testRewrite "a$\nb".toList = "ab".toList :=
  ⟨_, rfl, by decide +kernel, by decide +kernel⟩

/-- **C72 (identical).** -/
theorem C72_identical {m m' : Slm} (hm : ∀ n ∈ m, n.Merged) (h : MapFn.apply .identical m = some m') :
    slmText m' = slmText m := by
  cases h
  unfold wasmIdenticalMap
  rw [(mapGenerated_text _ _ _).1, ← normCodes_flatten hm]
  generalize normCodes m = cs
  induction cs with
  | nil => rfl
  | cons c cs ih => rw [runCodes, List.flatten_cons, ← ih]

example : testRewrite "a;b\\\nc$;d\\$\n".toList = "a\nb cd\\".toList := by decide +kernel

example : (∀ n ∈ slmNewStr "a;b\\\nc$\nd".toList (some 1) (some 2), n.Merged) ∧
    Aligned (normCodes (slmNewStr "a;b\\\nc$\nd".toList (some 1) (some 2))) ∧
    (MapFn.apply .test (slmNewStr "a;b\\\nc$\nd".toList (some 1) (some 2))).map slmText = some "a\nb cd".toList :=
  ⟨fun n hn => (slmNewStr_built _ _ _ n hn).merged, slmNewStr_aligned _ _ _, by decide +kernel⟩

end WS
