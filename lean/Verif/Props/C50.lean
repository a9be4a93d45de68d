import Verif.Proofs.JsHash
/-!
# C50: fractional positions order insertions

`ReplaceSource.insert` and `replace` accept fractional positions (`wasm-api/ReplaceSource.js:16-60`):
what is inserted between two characters stands in the order of the positions, and in the order of the
calls where the positions agree.

Full claim: for all positions. Proved part (`C50_gap_partial`): positions that are whole or not
negative, compared in sixteenths. False of the code otherwise: positions that differ by less than a
sixteenth may be swapped (`C50_sixteenth`), and the remainder of JavaScript has the sign of the
position, which puts negative fractions before the whole number below them (`C50_negative`).
-/

namespace WS
open Spec

/-- The numbered requests from left to right: by position, counted in sixteenths, then by call. -/
structure Spec.LeftToRightCalls (rs : List JRequest) (es : List (JRequest × Nat)) : Prop where
  perm : es.Perm rs.zipIdx
  order : es.Pairwise fun x y => sixteenth x.1.first < sixteenth y.1.first ∨
    sixteenth x.1.first = sixteenth y.1.first ∧ x.2 < y.2

theorem applyRight_gap (k : Nat) (es : List Edit) (h : ∀ e ∈ es, e.start = k ∧ e.stop = k) (s : Str) :
    applyRight s es = s.take k ++ (es.reverse.map Edit.text).flatten ++ s.drop k := by
  induction es generalizing s with
  | nil => simp [applyRight]
  | cons e es ih =>
    obtain ⟨h1, h2⟩ := h e (by simp)
    rw [applyRight, ih (fun e he => h e (by simp [he])), h1, h2]
    simp [List.take_take]

/-- Everything inserted at one gap stands in the order of the positions. -/
theorem C50_gap_partial (ops : List JOp) (w w' : World) (hp : ∀ op ∈ ops, op.Proper)
    (e : World.run ops = .ok w) (j : Nat) (c : JSrc) (rs : List JRequest)
    (hj : (jthings ops)[j]? = some (.replaced c rs)) (k : Nat)
    (hr : ∀ r ∈ rs, r.last = r.first - 1 ∧ r.first.floor = k) (s t : Str)
    (hc : JText (jthings ops) c s) (er : w.readSource j = .ok (t, w'))
    (es : List (JRequest × Nat)) (hes : LeftToRightCalls rs es) :
    t = s.take k ++ (es.map fun x => x.1.text).flatten ++ s.drop k := by
  obtain ⟨A, I⟩ := World.run_inv hp e
  have ht := (I.source_iff j t).1 ⟨_, er⟩
  have hmem : ∀ x ∈ es, x.1 ∈ rs := by
    intro x hx
    have := hes.perm.subset hx
    obtain ⟨i, hi⟩ := List.getElem?_of_mem this
    rw [List.getElem?_zipIdx] at hi
    cases hk : rs[i]? with
    | none => rw [hk] at hi; cases hi
    | some r => rw [hk] at hi; cases hi; exact List.mem_of_getElem? hk
  have hrl : RightToLeft rs es.reverse := by
    refine ⟨(List.reverse_perm es).trans hes.perm, ?_⟩
    rw [List.pairwise_reverse]
    refine List.Pairwise.imp_of_mem ?_ hes.order
    intro x y hx hy h
    have h1 := (hr _ (hmem x hx)).1
    have h2 := (hr _ (hmem y hy)).1
    simp only [Before, h1, h2, sixteenth_sub_one]
    omega
  have := JText.replaced hj hc hrl
  rw [ht.unique _ this, applyRight_gap k]
  · simp [List.map_map, Function.comp_def, JRequest.edit]
  · intro e he
    rw [List.mem_map] at he
    obtain ⟨x, hx, rfl⟩ := he
    obtain ⟨h1, h2⟩ := hr _ (hmem x (List.mem_reverse.1 hx))
    have h3 : (x.1.first - 1).floor = x.1.first.floor - 1 := by
      have := floor_add_int x.1.first (-1)
      have h4 : x.1.first + ((-1 : Int) : Rat) = x.1.first - 1 := by
        have : ((-1 : Int) : Rat) = -1 := rfl
        rw [this]; grind
      rw [h4] at this; omega
    refine ⟨h2, ?_⟩
    show x.1.last.floor + 1 = k
    rw [h1, h3, h2]; omega

/-- Four insertions in one gap, called in another order, two at the same place. -/
def c50Program : List JOp :=
  [.newRaw "abcd".toList, .newReplace (.obj 0), .insert 1 (11/4) "3".toList, .insert 1 2 "0".toList,
   .insert 1 (5/2) "1".toList, .insert 1 (5/2) "2".toList]

example : (World.run c50Program).toOption.isSome = true := by decide +kernel
example : ((World.run c50Program).bind fun w => (w.readSource 1).map Prod.fst) =
    .ok "ab0123cd".toList := by decide +kernel
example : (jthings c50Program)[1]? = some (.replaced (.obj 0)
    [⟨11/4, 7/4, "3".toList⟩, ⟨2, 1, "0".toList⟩, ⟨5/2, 3/2, "1".toList⟩, ⟨5/2, 3/2, "2".toList⟩]) := by
  decide +kernel

/-- Positions that lie in the same sixteenth keep the order of the calls. -/
theorem C50_sixteenth : ((World.run [.newRaw "ab".toList, .newReplace (.obj 0),
      .insert 1 (33/32) "2".toList, .insert 1 1 "1".toList]).bind fun w => (w.readSource 1).map Prod.fst) =
    .ok "a21b".toList := by decide +kernel

/-- Before the text: the position −1/2 is right of −1, but what is inserted there comes first. -/
def c50Negative : List JOp :=
  [.newRaw "ab".toList, .newReplace (.obj 0), .insert 1 (-1) "1".toList, .insert 1 (-1/2) "2".toList]

/-- The order of negative fractions is wrong: without the restriction on positions neither this claim
nor C46 holds. -/
theorem C50_negative :
    ((World.run c50Negative).bind fun w => (w.readSource 1).map Prod.fst) = .ok "21ab".toList ∧
    JText (jthings c50Negative) (.obj 1) "12ab".toList ∧
    ¬ JText (jthings c50Negative) (.obj 1) "21ab".toList := by
  have h0 : jthings c50Negative = [.leaf "ab".toList [],
      .replaced (.obj 0) [⟨-1, -2, "1".toList⟩, ⟨-1/2, -3/2, "2".toList⟩]] := by decide +kernel
  have h1 : JText (jthings c50Negative) (.obj 1) "12ab".toList := by
    rw [h0]
    have hs : JText [.leaf "ab".toList [],
      .replaced (.obj 0) [⟨-1, -2, "1".toList⟩, ⟨-1/2, -3/2, "2".toList⟩]] (.obj 0) "ab".toList :=
      .leaf rfl
    have := JText.replaced (j := 1) rfl hs (es := [(⟨-1/2, -3/2, "2".toList⟩, 1), (⟨-1, -2, "1".toList⟩, 0)])
      ⟨List.Perm.swap _ _ _, by
        rw [List.pairwise_cons]
        refine ⟨?_, by simp⟩
        intro y hy
        rw [List.mem_singleton] at hy
        subst hy
        left
        decide +kernel⟩
    have hx : applyRight "ab".toList (List.map (fun e => e.1.edit)
        [((⟨-1/2, -3/2, "2".toList⟩ : JRequest), 1), (⟨-1, -2, "1".toList⟩, 0)]) = "12ab".toList := by
      decide +kernel
    rw [hx] at this
    exact this
  refine ⟨by decide +kernel, h1, fun h => ?_⟩
  have := h.unique _ h1
  revert this; decide

end WS
