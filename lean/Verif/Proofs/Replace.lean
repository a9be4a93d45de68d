import Verif.Proofs.Text
import Verif.Proofs.Sort
import Verif.Spec.Edit
/-! # Lemmas about `replace_string` -/

namespace WS

/-- The edit a replacement asks for. -/
def Repl.edit (r : Repl) : Spec.Edit := ⟨r.start, r.stop, r.text⟩

/-- `split_str` cuts at characters as long as the flag is only set for empty texts. -/
theorem splitStr_orAll (s : Str) (pos : Int) (sbc : Bool) (h : sbc = true → s = []) :
    ∃ r, splitStr s pos sbc = .ok r ∧ r.orAll.1 = s.take pos.toNat ∧
      r.orAll.2.1 = s.drop pos.toNat ∧ (r.orAll.2.2.1 = true → s.take pos.toNat = []) ∧
      (r.orAll.2.2.2 = true → s.drop pos.toNat = []) := by
  unfold splitStr
  dsimp only
  split
  · rename_i hp
    have : pos.toNat = 0 := by omega
    refine ⟨_, rfl, ?_⟩
    simp [SplitRes.orAll, this]
    exact h
  · split
    · rename_i hs
      have := h hs
      subst this
      simp [blen_nil, SplitRes.orAll]
    · split
      · rename_i hp hs hn
        refine ⟨_, rfl, rfl, rfl, ?_, ?_⟩
        · simp only [SplitRes.orAll, beq_iff_eq]
          exact fun h => blen_eq_zero.1 h
        · simp [SplitRes.orAll, hs]
      · rename_i hp hs hn
        refine ⟨_, rfl, ?_⟩
        simp only [SplitRes.orAll]
        have h1 : s.take pos.toNat = s := List.take_of_length_le (by omega)
        have h2 : s.drop pos.toNat = [] := List.drop_eq_nil_of_le (by omega)
        simp [h1, h2, hs]

theorem replLoop_spec (rs : List Repl) (rem : Str) (sbc : Bool) (stack : List (Str × Bool))
    (h : sbc = true → rem = []) :
    ∃ stack', replLoop ((rem, sbc) :: stack) rs = .ok stack' ∧
      (stack'.map Prod.fst).flatten =
        Spec.applyRight rem (rs.map Repl.edit) ++ (stack.map Prod.fst).flatten := by
  induction rs generalizing rem sbc stack with
  | nil => exact ⟨_, rfl, by simp [Spec.applyRight]⟩
  | cons r rs ih =>
    obtain ⟨sp1, h1, a1, b1, c1, d1⟩ := splitStr_orAll rem r.stop sbc h
    obtain ⟨l1, r1, f1, g1, e1⟩ : ∃ l1 r1 f1 g1, sp1.orAll = (l1, r1, f1, g1) := ⟨_, _, _, _, rfl⟩
    simp only [e1] at a1 b1 c1 d1
    obtain ⟨sp2, h2, a2, b2, c2, d2⟩ := splitStr_orAll l1 r.start f1 (by rw [a1]; exact c1)
    obtain ⟨l2, r2, f2, g2, e2⟩ : ∃ l2 r2 f2 g2, sp2.orAll = (l2, r2, f2, g2) := ⟨_, _, _, _, rfl⟩
    simp only [e2] at a2 b2 c2 d2
    obtain ⟨st, h3, h4⟩ := ih l2 f2 ((r.text, false) :: (r1, g1) :: stack) (by rw [a2]; exact c2)
    refine ⟨st, ?_, ?_⟩
    · simp only [replLoop, h1, e1, h2, e2, h3]
    · rw [h4, a2, a1, b1]
      simp [Spec.applyRight, Repl.edit]

/-- `replace_string` never panics and applies the sorted requests from right to left. -/
theorem replaceString_eq (s : Str) (rs : List Repl) :
    replaceString s rs = .ok (Spec.applyRight s (rs.map Repl.edit)) := by
  obtain ⟨st, h1, h2⟩ := replLoop_spec rs s false [] (by simp)
  simp [replaceString, h1, h2]

/-! ## Requests in call order -/

/-- A call of `replace`/`insert` as the pair of encoded positions and the text. -/
structure Call where
  s : Int
  e : Int
  text : Str
  deriving DecidableEq, Repr

/-- What the calls leave in the list when nothing is sorted: numbered from `n`. -/
def tag : Nat → List Call → List Repl
  | _, [] => []
  | n, c :: cs => ⟨c.s, c.e, c.text, n⟩ :: tag (n + 1) cs

/-- The call behind a numbered request. -/
def Repl.call (r : Repl) : Call := ⟨r.s, r.e, r.text⟩

theorem tag_append (n : Nat) (a b : List Call) : tag n (a ++ b) = tag n a ++ tag (n + a.length) b := by
  induction a generalizing n with
  | nil => simp [tag]
  | cons c a ih => simp [tag, ih, Nat.add_assoc, Nat.add_comm 1]

theorem tag_length (n : Nat) (a : List Call) : (tag n a).length = a.length := by
  induction a generalizing n with
  | nil => rfl
  | cons c a ih => simp [tag, ih]

theorem tag_call (n : Nat) (a : List Call) : (tag n a).map Repl.call = a := by
  induction a generalizing n with
  | nil => rfl
  | cons c a ih => simp [tag, ih, Repl.call]

theorem tag_idx_ge {n : Nat} {a : List Call} {r : Repl} (h : r ∈ tag n a) : n ≤ r.idx := by
  induction a generalizing n with
  | nil => simp [tag] at h
  | cons c a ih =>
    simp only [tag, List.mem_cons] at h
    rcases h with rfl | h
    · exact Nat.le_refl _
    · exact Nat.le_of_succ_le (ih h)

theorem tag_pairwise (n : Nat) (a : List Call) : (tag n a).Pairwise (fun x y => x.idx < y.idx) := by
  induction a generalizing n with
  | nil => exact List.Pairwise.nil
  | cons c a ih =>
    simp only [tag, List.pairwise_cons]
    exact ⟨fun r hr => tag_idx_ge hr, ih (n + 1)⟩

theorem tag_idx_inj {n : Nat} {a : List Call} {x y : Repl} (hx : x ∈ tag n a) (hy : y ∈ tag n a)
    (h : x.idx = y.idx) : x = y := by
  induction a generalizing n with
  | nil => simp [tag] at hx
  | cons c a ih =>
    simp only [tag, List.mem_cons] at hx hy
    rcases hx with rfl | hx <;> rcases hy with rfl | hy
    · rfl
    · have := tag_idx_ge hy; simp at h; omega
    · have := tag_idx_ge hx; simp at h; omega
    · exact ih hx hy

theorem tag_antisymm {n : Nat} {a : List Call} : ∀ x ∈ tag n a, ∀ y ∈ tag n a,
    Repl.le x y = true → Repl.le y x = true → x = y :=
  fun x hx y hy h₁ h₂ => tag_idx_inj hx hy (Repl.idx_eq_of_le x y h₁ h₂).2.2

/-- The list kept by a `ReplaceSource` after the calls `cs`, with reads in between: some
arrangement of the numbered calls, the sorted one if the flag is set. -/
def ReplSim (cs : List Call) (rs : List Repl) (isSorted : Bool) : Prop :=
  rs.Perm (tag 0 cs) ∧ (isSorted = true → rs = sortBy Repl.le (tag 0 cs))

theorem ReplSim.sorted {cs : List Call} {rs : List Repl} {b : Bool} (h : ReplSim cs rs b) :
    sortRepls rs b = sortBy Repl.le (tag 0 cs) := by
  unfold sortRepls
  split
  · rename_i hb; exact h.2 hb
  · exact (sortBy_perm_eq Repl.le_total Repl.le_trans h.1.symm tag_antisymm).symm

theorem ReplSim.afterSort {cs : List Call} {rs : List Repl} {b : Bool} (h : ReplSim cs rs b) :
    ReplSim cs (sortRepls rs b) true := by
  rw [h.sorted]
  exact ⟨sortBy_perm _, fun _ => rfl⟩

theorem ReplSim.push {cs : List Call} {rs : List Repl} {b : Bool} (h : ReplSim cs rs b)
    (c : Call) : ReplSim (cs ++ [c]) (rs ++ [⟨c.s, c.e, c.text, rs.length⟩]) false := by
  refine ⟨?_, by simp⟩
  rw [tag_append]
  have : rs.length = 0 + cs.length := by rw [h.1.length_eq, tag_length]; omega
  simp only [tag, ← this]
  exact h.1.append (List.Perm.refl _)

theorem ReplSim.nil (b : Bool) : ReplSim [] [] b := ⟨List.Perm.refl _, fun _ => rfl⟩

/-- The requests of a list of calls from right to left. -/
def sortedCalls (cs : List Call) : List Repl := sortBy Repl.le (tag 0 cs)

end WS
