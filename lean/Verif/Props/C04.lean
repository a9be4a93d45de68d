import Verif.Proofs.Reads
import Verif.Proofs.Edits
/-! # C04 Disjoint replacements splice exactly the named ranges -/

namespace WS
open Spec

/-- The positions are whole numbers and form a (possibly empty) range. -/
def Spec.Request.Whole (r : Request) : Prop := r.ordS = 0 ∧ r.ordE = 0 ∧ r.start ≤ r.stop

/-- No two ranges share a character. -/
def Spec.Disjoint (rs : List Request) : Prop :=
  rs.Pairwise fun a b => a.stop ≤ b.start ∨ b.stop ≤ a.start

/-- `es` lists the requests `rs` from left to right; requests that insert at one position stay in
call order. -/
structure Spec.Arranged (rs es : List Request) : Prop where
  perm : es.Perm rs
  order : es.Pairwise fun a b => a.stop ≤ b.start
  ties : ∀ p, es.filter (fun r => decide (r.start = p ∧ r.stop = p)) =
    rs.filter (fun r => decide (r.start = p ∧ r.stop = p))

theorem perm_short {α : Type _} {l l' : List α} (h : l.Perm l') (hl : l.length ≤ 1) : l = l' := by
  cases l with
  | nil => exact (List.perm_nil.1 h.symm).symm
  | cons a l =>
    cases l with
    | nil => exact (List.perm_singleton.1 h.symm).symm
    | cons b l => simp at hl

theorem filter_whole {rs : List Request} (hw : ∀ r ∈ rs, r.Whole) (k : Int × Int) :
    (rs.map Request.call).filter (fun c => decide (c.key = k)) =
      (rs.filter (fun r => decide (((r.stop - 1) * 16, r.start * 16) = k))).map Request.call := by
  rw [List.filter_map]
  congr 1
  apply List.filter_congr
  intro r hr
  have := hw r hr
  simp [Call.key, Request.call, this.1, this.2.1]

theorem sortedCalls_arranged {rs es : List Request} (hw : ∀ r ∈ rs, r.Whole) (h : Arranged rs es) :
    (sortedCalls (rs.map Request.call)).map Repl.call = (es.map Request.call).reverse := by
  have hw' : ∀ r ∈ es, r.Whole := fun r hr => hw r (h.perm.mem_iff.1 hr)
  apply eq_of_key_filters Call.key keyGt
  · intro k; simp [keyGt]
  · intro a b; simp only [keyGt]; omega
  · exact sortedCalls_keys _
  · rw [List.pairwise_reverse, List.pairwise_map]
    refine List.Pairwise.imp_of_mem ?_ h.order
    intro a b ha hb hab
    have h1 := hw' a ha
    have h2 := hw' b hb
    simp only [Request.Whole] at h1 h2
    simp only [keyGt, Call.key, Request.call, Prod.mk.injEq]
    omega
  · intro k
    rw [sortedCalls_filter, List.filter_reverse, filter_whole hw, filter_whole hw']
    congr 2
    by_cases hk : ∃ p : Int, k = ((p - 1) * 16, p * 16)
    · obtain ⟨p, rfl⟩ := hk
      have : ∀ r : Request, (decide (((r.stop - 1) * 16, r.start * 16) = ((p - 1) * 16, p * 16))) =
          decide (r.start = p ∧ r.stop = p) := by
        intro r
        apply decide_eq_decide.2
        simp only [Prod.mk.injEq]
        omega
      simp only [this]
      exact (h.ties p).symm
    · symm
      apply perm_short (h.perm.filter _)
      have hp := h.order.filter fun r => decide (((r.stop - 1) * 16, r.start * 16) = k)
      cases hes : es.filter (fun r => decide (((r.stop - 1) * 16, r.start * 16) = k)) with
      | nil => simp
      | cons a l =>
        cases l with
        | nil => simp
        | cons b l =>
          exfalso
          rw [hes] at hp
          have hab := (List.pairwise_cons.1 hp).1 b (by simp)
          have ha : a ∈ es.filter (fun r => decide (((r.stop - 1) * 16, r.start * 16) = k)) := by
            rw [hes]; simp
          have hb : b ∈ es.filter (fun r => decide (((r.stop - 1) * 16, r.start * 16) = k)) := by
            rw [hes]; simp
          have ha' := of_decide_eq_true (List.mem_filter.1 ha).2
          have hb' := of_decide_eq_true (List.mem_filter.1 hb).2
          have h1 := hw' a (List.mem_filter.1 ha).1
          have h2 := hw' b (List.mem_filter.1 hb).1
          simp only [Request.Whole] at h1 h2
          have e := ha'.trans hb'.symm
          simp only [Prod.mk.injEq] at e
          apply hk
          have h3 : a.stop = a.start := by omega
          exact ⟨a.start, by rw [← ha', h3]⟩

theorem call_edit_whole {es : List Request} (hw : ∀ r ∈ es, r.Whole) :
    (es.map Request.call).map Call.edit = es.map Request.edit := by
  rw [List.map_map]
  apply List.map_congr_left
  intro r hr
  have := hw r hr
  simp only [Request.Whole] at this
  simp only [Function.comp, Call.edit, Request.call, Request.edit, Edit.mk.injEq, and_true]
  omega

/-- The text of a `ReplaceSource` in terms of that of the wrapped source. -/
theorem replace_source_iff {ops : List Op} {h : Heap} {i : Nat} {c : Src} {s : List Char}
    (hrun : run ops = .ok h) (hi : (created ops)[i]? = some (.newReplace c)) :
    (∃ h', apiSource h i = .ok (s, h')) ↔ ∃ u, ReadsAs h c u ∧ s = applyRight u
      ((sortedCalls ((requests ops i).map Request.call)).map Repl.edit) := by
  obtain ⟨A, hA, H⟩ := run_abs hrun
  have D := stepAll_described hA i
  rw [hi] at D
  simp only [Option.bind_some, objOf] at D
  rw [api_source_iff H]
  constructor
  · rintro ⟨t, ht, rfl⟩
    cases ht with
    | replace e hc =>
      rw [D] at e; cases e
      exact ⟨_, (readsAs_iff H _ _).2 ⟨_, hc, rfl⟩, rfl⟩
    | raw e => rw [D] at e; cases e
    | original e => rw [D] at e; cases e
    | l2l e => rw [D] at e; cases e
    | sms e => rw [D] at e; cases e
    | concat e => rw [D] at e; cases e
    | prefixed e => rw [D] at e; cases e
  · rintro ⟨u, hu, rfl⟩
    obtain ⟨t, ht, rfl⟩ := (readsAs_iff H _ _).1 hu
    exact ⟨_, .replace D ht, rfl⟩

/-- C04. After any history in which the requests made to a `ReplaceSource` name disjoint ranges,
`source()` succeeds with `s` exactly if `source()` of the wrapped source succeeds, with a text `u`,
and `s` is `u` with every named range replaced by the text of its request. -/
theorem C04_disjoint_splice (ops : List Op) (h : Heap) (i : Nat) (c : Src) (es : List Request)
    (s : List Char) (hrun : run ops = .ok h) (hi : (created ops)[i]? = some (.newReplace c))
    (hw : ∀ r ∈ requests ops i, r.Whole) (he : Arranged (requests ops i) es) :
    (∃ h', apiSource h i = .ok (s, h')) ↔
      ∃ u, ReadsAs h c u ∧ s = splice u 0 (es.map Request.edit) := by
  rw [replace_source_iff hrun hi, map_edit, sortedCalls_arranged hw he, List.map_reverse,
    call_edit_whole (fun r hr => hw r (he.perm.mem_iff.1 hr))]
  have : LeftToRight (es.map Request.edit) := by
    constructor
    · intro e he'
      obtain ⟨r, hr, rfl⟩ := List.mem_map.1 he'
      exact (hw r (he.perm.mem_iff.1 hr)).2.2
    · rw [List.pairwise_map]; exact he.order
  simp only [applyRight_reverse _ this]

/-- C04: disjoint requests can always be arranged from left to right, so the theorem above applies
to them. -/
theorem C04_arrangement_exists (rs : List Request) (hw : ∀ r ∈ rs, r.Whole) (hd : Disjoint rs) :
    ∃ es, Arranged rs es := by
  let back : Call → Request := fun c => ⟨c.s / 16, c.s % 16, c.e / 16 + 1, c.e % 16, c.text⟩
  have hback : ∀ r : Request, r.Whole → back r.call = r := by
    intro r hr
    obtain ⟨a, b, c, d, t⟩ := r
    simp only [Request.Whole] at hr
    simp only [back, Request.call, Request.mk.injEq, and_true]
    omega
  have hmap : (rs.map Request.call).map back = rs := by
    rw [List.map_map]
    conv => rhs; rw [← List.map_id rs]
    exact List.map_congr_left fun r hr => hback r (hw r hr)
  let L := (sortedCalls (rs.map Request.call)).map Repl.call
  have hL : L.Perm (rs.map Request.call) := by
    have := (sortBy_perm (le := Repl.le) (tag 0 (rs.map Request.call))).map Repl.call
    rwa [tag_call] at this
  have hkeys := sortedCalls_keys (rs.map Request.call)
  have hfil := sortedCalls_filter (rs.map Request.call)
  change L.Pairwise _ at hkeys
  change ∀ k, L.filter _ = _ at hfil
  refine ⟨(L.map back).reverse, ?_, ?_, ?_⟩
  · have := (List.reverse_perm (L.map back)).trans (hL.map back)
    rwa [hmap] at this
  · rw [List.pairwise_reverse, List.pairwise_map]
    have hd' : L.Pairwise fun a b => (back a).stop ≤ (back b).start ∨ (back b).stop ≤ (back a).start := by
      rw [hL.pairwise_iff (by intro x y h; exact h.symm), List.pairwise_map]
      refine List.Pairwise.imp_of_mem ?_ hd
      intro a b ha hb hab
      rwa [hback a (hw a ha), hback b (hw b hb)]
    refine List.Pairwise.imp_of_mem ?_ (hd'.and hkeys)
    intro a b ha hb ⟨h1, h2⟩
    obtain ⟨ra, hra, rfl⟩ := List.mem_map.1 (hL.mem_iff.1 ha)
    obtain ⟨rb, hrb, rfl⟩ := List.mem_map.1 (hL.mem_iff.1 hb)
    rw [hback ra (hw ra hra), hback rb (hw rb hrb)] at h1 ⊢
    have wa := hw ra hra
    have wb := hw rb hrb
    simp only [Request.Whole] at wa wb
    simp only [keyGt, Call.key, Request.call, Prod.mk.injEq] at h2
    omega
  · intro p
    have hf : ∀ c ∈ L, decide ((back c).start = p ∧ (back c).stop = p) =
        decide (c.key = ((p - 1) * 16, p * 16)) := by
      intro c hc
      obtain ⟨r, hr, rfl⟩ := List.mem_map.1 (hL.mem_iff.1 hc)
      rw [hback r (hw r hr)]
      have := hw r hr
      simp only [Request.Whole] at this
      apply decide_eq_decide.2
      simp only [Call.key, Request.call, Prod.mk.injEq]
      omega
    rw [List.filter_reverse, List.filter_map]
    simp only [Function.comp_def]
    rw [List.filter_congr hf, hfil, filter_whole hw, List.map_reverse, List.reverse_reverse,
      List.map_map]
    rw [List.map_congr_left (g := id), List.map_id]
    · apply List.filter_congr
      intro r _
      apply decide_eq_decide.2
      simp only [Prod.mk.injEq]
      omega
    · intro r hr
      exact hback r (hw r (List.mem_filter.1 hr).1)

/-! Non-trivial case: requests out of order, an insertion right before and one right after a
replaced range, two insertions at one place, one beyond the end. -/

/-- A history with requests in no particular order. -/
def C04_history : List Op :=
  [.newRaw "0123456789".toList, .newReplace (.ref 0),
   .insert 1 6 "<".toList 0, .replace 1 3 5 "ABCD".toList 0 0, .insert 1 3 "[".toList 0,
   .insert 1 6 ">".toList 0, .replace 1 0 0 "".toList 0 0, .insert 1 99 "!".toList 0]

/-- Its requests from left to right. -/
def C04_arranged : List Request :=
  [⟨0, 0, 1, 0, []⟩, ⟨3, 0, 3, 0, "[".toList⟩, ⟨3, 0, 6, 0, "ABCD".toList⟩,
   ⟨6, 0, 6, 0, "<".toList⟩, ⟨6, 0, 6, 0, ">".toList⟩, ⟨99, 0, 99, 0, "!".toList⟩]

example : (match run C04_history with
    | .ok h => (apiSource h 1).toOption.map Prod.fst | .error _ => none)
      = some "12[ABCD<>6789!".toList := by decide +kernel
example : splice "0123456789".toList 0 (C04_arranged.map Request.edit) =
    "12[ABCD<>6789!".toList := by decide +kernel
example : (created C04_history)[1]? = some (.newReplace (.ref 0)) := by decide +kernel
example : (∀ r ∈ requests C04_history 1, r.ordS = 0 ∧ r.ordE = 0 ∧ r.start ≤ r.stop) ∧
    C04_arranged.Perm (requests C04_history 1) ∧
    C04_arranged.Pairwise (fun a b => a.stop ≤ b.start) := by decide +kernel
example : (C04_arranged.filter fun r => decide (r.start = 6 ∧ r.stop = 6)) =
    (requests C04_history 1).filter fun r => decide (r.start = 6 ∧ r.stop = 6) := by decide +kernel

end WS
