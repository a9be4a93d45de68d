import Verif.Props.C04
/-! # C05 The edit result does not depend on call order, ties keep call order -/

namespace WS
open Spec

/-- The position of a request. -/
def Spec.Request.pos (r : Request) : Int × Int × Int × Int := (r.start, r.ordS, r.stop, r.ordE)

/-- Fractional parts as JavaScript produces them: sixteenths. -/
def Spec.Request.Frac (r : Request) : Prop := 0 ≤ r.ordS ∧ r.ordS < 16 ∧ 0 ≤ r.ordE ∧ r.ordE < 16

theorem filter_frac {rs : List Request} (hw : ∀ r ∈ rs, r.Frac) (k : Int × Int) :
    (rs.map Request.call).filter (fun c => decide (c.key = k)) =
      (rs.filter (fun r => decide (r.pos = (k.2 / 16, k.2 % 16, k.1 / 16 + 1, k.1 % 16)))).map
        Request.call := by
  rw [List.filter_map]
  congr 1
  apply List.filter_congr
  intro r hr
  have := hw r hr
  obtain ⟨k1, k2⟩ := k
  obtain ⟨a, b, c, d, t⟩ := r
  simp only [Request.Frac] at this
  apply decide_eq_decide.2
  simp only [Call.key, Request.call, Request.pos, Prod.mk.injEq]
  omega

/-- C05. Take two histories and a `ReplaceSource` in each whose wrapped sources read the same. If for
every position the requests with exactly that position are the same in the same order, `source()`
is the same (or fails in both). Only the relative order of requests with identical positions
matters, whatever overlaps there are. -/
theorem C05_order_irrelevant (ops₁ ops₂ : List Op) (h₁ h₂ : Heap) (i₁ i₂ : Nat) (c₁ c₂ : Src)
    (s : List Char) (hrun₁ : run ops₁ = .ok h₁) (hrun₂ : run ops₂ = .ok h₂)
    (hi₁ : (created ops₁)[i₁]? = some (.newReplace c₁))
    (hi₂ : (created ops₂)[i₂]? = some (.newReplace c₂))
    (hc : ∀ u, ReadsAs h₁ c₁ u ↔ ReadsAs h₂ c₂ u)
    (hf₁ : ∀ r ∈ requests ops₁ i₁, r.Frac) (hf₂ : ∀ r ∈ requests ops₂ i₂, r.Frac)
    (hsame : ∀ p, (requests ops₁ i₁).filter (fun r => decide (r.pos = p)) =
      (requests ops₂ i₂).filter (fun r => decide (r.pos = p))) :
    (∃ h', apiSource h₁ i₁ = .ok (s, h')) ↔ (∃ h', apiSource h₂ i₂ = .ok (s, h')) := by
  rw [replace_source_iff hrun₁ hi₁, replace_source_iff hrun₂ hi₂]
  have := sortedCalls_congr ((requests ops₁ i₁).map Request.call)
    ((requests ops₂ i₂).map Request.call) (fun k => by
      rw [filter_frac hf₁, filter_frac hf₂, hsame])
  simp only [map_edit, this, hc]

/-- C05: texts inserted at one position appear in call order, between the two parts of the text. -/
theorem C05_inserts_in_call_order (ops : List Op) (h : Heap) (i : Nat) (c : Src) (p : Int)
    (s : List Char) (hrun : run ops = .ok h) (hi : (created ops)[i]? = some (.newReplace c))
    (hins : ∀ r ∈ requests ops i, r.start = p ∧ r.stop = p ∧ r.ordS = 0 ∧ r.ordE = 0) :
    (∃ h', apiSource h i = .ok (s, h')) ↔ ∃ u, ReadsAs h c u ∧
      s = u.take p.toNat ++ ((requests ops i).map Request.text).flatten ++ u.drop p.toNat := by
  have hw : ∀ r ∈ requests ops i, r.Whole := fun r hr => by
    have := hins r hr
    exact ⟨this.2.2.1, this.2.2.2, by omega⟩
  have he : Arranged (requests ops i) (requests ops i) := by
    refine ⟨List.Perm.refl _, ?_, fun _ => rfl⟩
    rw [List.pairwise_iff_forall_sublist]
    intro a b hab
    have h1 := hins a (hab.subset (by simp))
    have h2 := hins b (hab.subset (by simp))
    omega
  rw [C04_disjoint_splice ops h i c _ s hrun hi hw he]
  have key : ∀ (u : List Char) (rs : List Request) (k : Nat), k ≤ p.toNat →
      (∀ r ∈ rs, r.start = p ∧ r.stop = p) → splice u k (rs.map Request.edit) =
        (u.take p.toNat).drop k ++ (rs.map Request.text).flatten ++ u.drop p.toNat := by
    intro u rs
    induction rs with
    | nil =>
      intro k hk _
      simp only [List.map_nil, splice, List.flatten_nil, List.append_nil]
      have : u.drop k = (u.take p.toNat ++ u.drop p.toNat).drop k := by
        rw [List.take_append_drop]
      rw [this, List.drop_append]
      have : k - (u.take p.toNat).length = 0 ∨ u.drop p.toNat = [] := by
        rw [List.length_take]
        by_cases hl : u.length ≤ p.toNat
        · exact .inr (List.drop_eq_nil_of_le hl)
        · exact .inl (by omega)
      rcases this with h0 | h0
      · rw [h0, List.drop_zero]
      · simp [h0]
    | cons r rs ih =>
      intro k hk hr
      have h1 := hr r (by simp)
      have := ih p.toNat (Nat.le_refl _) (fun r hr' => hr r (by simp [hr']))
      simp only [List.map_cons, splice, Request.edit, h1.1, h1.2] at this ⊢
      rw [this]
      simp
  have := fun u => key u (requests ops i) 0 (Nat.zero_le _) (fun r hr => ⟨(hins r hr).1, (hins r hr).2.1⟩)
  simp only [this, List.drop_zero]

/-! Non-trivial case: overlapping requests with fractional positions in two orders; the two requests
at identical positions keep their order. -/

/-- Requests in one order … -/
def C05_ops₁ : List Op :=
  [.newReplace (.str "0123456789".toList), .replace 0 2 8 "A".toList 0 0,
   .replace 0 4 5 "B".toList 0 8, .insert 0 3 "x".toList 4, .insert 0 3 "y".toList 4]
/-- … and in another. -/
def C05_ops₂ : List Op :=
  [.newReplace (.str "0123456789".toList), .insert 0 3 "x".toList 4,
   .replace 0 4 5 "B".toList 0 8, .insert 0 3 "y".toList 4, .replace 0 2 8 "A".toList 0 0]

example : (match run C05_ops₁ with
    | .ok h => (apiSource h 0).toOption.map Prod.fst | .error _ => none)
      = some "01xyBA9".toList := by decide +kernel
example : (match run C05_ops₂ with
    | .ok h => (apiSource h 0).toOption.map Prod.fst | .error _ => none)
      = some "01xyBA9".toList := by decide +kernel
example : (requests C05_ops₁ 0).Perm (requests C05_ops₂ 0) ∧
    (requests C05_ops₁ 0).filter (fun r => decide (r.pos = (3, 4, 3, 4))) =
      (requests C05_ops₂ 0).filter (fun r => decide (r.pos = (3, 4, 3, 4))) := by decide +kernel

end WS
