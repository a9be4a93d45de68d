import Verif.Proofs.Edits
/-! # List maps of overlapping edits

The rewriting function of `ReplaceSource` reads the text once, from left to right, so an edit takes only
what the edits before it left over. -/

namespace WS
open Spec

theorem LeftToRight.tail {e : Edit} {es : List Edit} (h : LeftToRight (e :: es)) : LeftToRight es :=
  ⟨fun d hd => h.1 d (by simp [hd]), (List.pairwise_cons.1 h.2).2⟩

/-- Edits one after the other, each clipped to what lies at `k` or behind it, and behind the edits before. -/
def Spec.clipped : Int → List Edit → List Edit
  | _, [] => []
  | k, e :: es =>
    ⟨max k e.start, max (max k e.start) e.stop, e.text⟩ :: clipped (max (max k e.start) e.stop) es

theorem clipped_from : ∀ (es : List Edit) (k : Int), ∀ e ∈ clipped k es, k ≤ e.start ∧ e.start ≤ e.stop
  | [], _, _, h => by cases h
  | d :: es, k, e, h => by
    rw [clipped] at h
    rcases List.mem_cons.1 h with rfl | h
    · dsimp only; omega
    · have := clipped_from es _ e h
      omega

theorem clipped_leftToRight : ∀ (es : List Edit) (k : Int), LeftToRight (clipped k es)
  | [], _ => ⟨by simp [clipped], by simp [clipped]⟩
  | d :: es, k => by
    obtain ⟨h1, h2⟩ := clipped_leftToRight es (max (max k d.start) d.stop)
    rw [clipped]
    refine ⟨?_, List.pairwise_cons.2 ⟨fun e he => (clipped_from _ _ e he).1, h2⟩⟩
    intro e he
    rcases List.mem_cons.1 he with rfl | he
    · dsimp only; omega
    · exact h1 e he

/-- Edits that do not overlap are left as they are. -/
theorem clipped_disjoint : ∀ {es : List Edit} {k : Int}, LeftToRight es → (∀ e ∈ es, k ≤ e.start) →
    clipped k es = es
  | [], _, _, _ => rfl
  | d :: es, k, h, hk => by
    have h1 := hk d (by simp)
    have h2 := h.1 d (by simp)
    have e1 : max k d.start = d.start := by omega
    have e2 : max d.start d.stop = d.stop := by omega
    rw [clipped, e1, e2, clipped_disjoint h.tail fun e he => (List.pairwise_cons.1 h.2).1 e he]

/-- Where clipped edits end. -/
def clipEnd : Int → List Edit → Int
  | k, [] => k
  | k, e :: es => clipEnd (max (max k e.start) e.stop) es

theorem clipEnd_le : ∀ (es : List Edit) (k b : Int), k ≤ b → (∀ e ∈ es, e.start ≤ b ∧ e.stop ≤ b) → clipEnd k es ≤ b
  | [], _, _, h, _ => h
  | d :: es, k, b, h, hb => by
    have := hb d (by simp)
    exact clipEnd_le es _ b (by omega) fun e he => hb e (by simp [he])

theorem le_clipEnd : ∀ (es : List Edit) (k : Int), k ≤ clipEnd k es ∧ ∀ e ∈ clipped k es, e.stop ≤ clipEnd k es
  | [], _ => ⟨Int.le_refl _, fun e h => by cases h⟩
  | d :: es, k => by
    obtain ⟨h1, h2⟩ := le_clipEnd es (max (max k d.start) d.stop)
    rw [clipEnd, clipped]
    refine ⟨by omega, fun e he => ?_⟩
    rcases List.mem_cons.1 he with rfl | he
    · exact h1
    · exact h2 e he

theorem clipped_snoc : ∀ (es : List Edit) (k : Int) (e : Edit), clipped k (es ++ [e]) =
    clipped k es ++ [⟨max (clipEnd k es) e.start, max (max (clipEnd k es) e.start) e.stop, e.text⟩]
  | [], _, _ => rfl
  | d :: es, k, e => by rw [List.cons_append, clipped, clipped_snoc es, clipped, clipEnd, List.cons_append]

/-- What lies between where an edit begins and where the edits before it end is taken by them. -/
theorem splice_taken (s : Str) (a : Int) : ∀ (es : List Edit) (k : Int), 0 ≤ k → (∀ e ∈ es, e.start ≤ a) →
    splice (s.take (max (clipEnd k es) a).toNat) k.toNat (clipped k es) =
      splice (s.take a.toNat) k.toNat (clipped k es)
  | [], k, _, _ => by
    rw [clipped, splice, splice, clipEnd, List.drop_take, List.drop_take]
    by_cases h : k ≤ a
    · rw [show max k a = a by omega]
    · rw [show (max k a).toNat - k.toNat = 0 by omega, show a.toNat - k.toNat = 0 by omega]
  | d :: es, k, hk, h => by
    have hd := h d (by simp)
    have hend := (le_clipEnd es (max (max k d.start) d.stop)).1
    rw [clipped, splice, splice, clipEnd,
      splice_taken s a es _ (by omega) (fun e he => h e (by simp [he])), List.take_take, List.take_take]
    congr 2
    rw [List.drop_take, List.drop_take]
    congr 1
    dsimp only
    omega

/-- Edits none of which lies within another, from left to right. -/
def Spec.Climbing (es : List Edit) : Prop :=
  (∀ e ∈ es, e.start ≤ e.stop) ∧ es.Pairwise fun a b => a.start ≤ b.start ∧ a.stop ≤ b.stop

theorem LeftToRight.climbing {es : List Edit} (h : LeftToRight es) : Climbing es := by
  obtain ⟨h1, h2⟩ := h
  induction es with
  | nil => exact ⟨h1, .nil⟩
  | cons d es ih =>
    rw [List.pairwise_cons] at h2
    obtain ⟨h3, h4⟩ := ih (fun e he => h1 e (by simp [he])) h2.2
    refine ⟨h1, List.pairwise_cons.2 ⟨fun e he => ?_, h4⟩⟩
    have := h2.1 e he
    have := h1 d (by simp)
    have := h1 e (by simp [he])
    omega

/-- Then it does not matter from which side they are applied. -/
theorem applyRight_clipped (es : List Edit) (h : Climbing es) (s : Str) :
    applyRight s es.reverse = splice s 0 (clipped 0 es) := by
  obtain ⟨h1, h2⟩ := h
  induction es using snoc_induction generalizing s with
  | nil => simp [applyRight, splice, clipped]
  | snoc es e ih =>
    rw [List.pairwise_append] at h2
    have he := h1 e (by simp)
    have hlt : ∀ d ∈ es, d.start ≤ e.start ∧ d.stop ≤ e.stop := fun d hd => h2.2.2 d hd e (by simp)
    have hend : clipEnd 0 es ≤ max 0 e.stop := clipEnd_le es 0 _ (by omega) fun d hd => by
      have := hlt d hd
      omega
    have h0 := (le_clipEnd es 0).1
    rw [clipped_snoc, splice_snoc s 0 _ _ (fun d hd => (clipped_from es 0 d hd).2) (by
      intro d hd
      have := (le_clipEnd es 0).2 d hd
      dsimp only
      omega)]
    have ht := splice_taken s e.start es 0 (by omega) (fun d hd => (hlt d hd).1)
    rw [Int.toNat_zero] at ht
    simp only [List.reverse_append, List.reverse_cons, List.reverse_nil, List.nil_append,
      List.cons_append, applyRight, List.take_take]
    rw [show min e.start.toNat e.stop.toNat = e.start.toNat by omega,
      show (max (max (clipEnd 0 es) e.start) e.stop).toNat = e.stop.toNat by omega,
      ht, ih _ (fun d hd => h1 d (by simp [hd])) h2.1]

/-- The same for replacements. -/
def clipRepls : Int → List Repl → List Repl
  | _, [] => []
  | k, r :: rs =>
    ⟨16 * max k r.start, 16 * (max (max k r.start) r.stop - 1), r.text, r.idx⟩ ::
      clipRepls (max (max k r.start) r.stop) rs

theorem clipRepls_edits : ∀ (rs : List Repl) (k : Int), (clipRepls k rs).map Repl.edit = clipped k (rs.map Repl.edit)
  | [], _ => rfl
  | r :: rs, k => by
    rw [clipRepls, List.map_cons, clipRepls_edits rs, List.map_cons, clipped]
    simp only [Repl.edit, Repl.start, Repl.stop, List.cons.injEq, Edit.mk.injEq, and_true]
    omega

theorem clipRepls_texts : ∀ (rs : List Repl) (k : Int), (clipRepls k rs).map Repl.text = rs.map Repl.text
  | [], _ => rfl
  | r :: rs, k => by rw [clipRepls, List.map_cons, clipRepls_texts rs, List.map_cons]

/-- States of the rewriting function that differ in clipping. -/
structure Clipped (st st' : RmState) : Prop where
  cur : st'.cur = st.cur
  remove : st'.remove = st.remove
  nonneg : 0 ≤ st.remove
  pending : ∃ k, k ≤ st.cur + st.remove ∧ st'.pending = clipRepls k st.pending

theorem rmLoop_clipped : ∀ (rs : List Repl) (cur k : Int) (s : Str), k ≤ cur →
    (rmLoop cur s (clipRepls k rs)).1 = (rmLoop cur s rs).1 ∧
    Clipped (rmLoop cur s rs).2 (rmLoop cur s (clipRepls k rs)).2
  | [], cur, k, s, h => ⟨rfl, ⟨rfl, rfl, by simp [rmLoop], ⟨k, by simpa [rmLoop] using h, rfl⟩⟩⟩
  | r :: rs, cur, k, s, h => by
    have e1 : ∀ k : Int, Repl.start ⟨16 * max k r.start, 16 * (max (max k r.start) r.stop - 1), r.text, r.idx⟩ =
        max k r.start := by intro k; simp only [Repl.start]; omega
    have e2 : ∀ k : Int, Repl.stop ⟨16 * max k r.start, 16 * (max (max k r.start) r.stop - 1), r.text, r.idx⟩ =
        max (max k r.start) r.stop := by intro k; simp only [Repl.stop]; omega
    rw [clipRepls, rmLoop, rmLoop, e1]
    have s1 : stepChars (max k r.start - cur) s = stepChars (r.start - cur) s := by
      by_cases hc : r.start ≤ cur
      · rw [stepChars, stepChars, if_pos (by omega), if_pos (by omega)]
      · rw [show max k r.start = r.start by omega]
    rw [s1]
    cases h1 : stepChars (r.start - cur) s with
    | error x =>
      obtain ⟨n, chars⟩ := x
      dsimp only
      have hch : 0 ≤ chars := by
        simp only [stepChars] at h1
        split at h1
        · cases h1
        · split at h1
          · cases h1
          · cases h1; omega
      refine ⟨rfl, ⟨rfl, rfl, by simp, k, by dsimp only; omega, ?_⟩⟩
      rw [clipRepls]
    | ok x =>
      obtain ⟨pre, s1'⟩ := x
      dsimp only
      have hpre : r.start ≤ cur + pre.length := by
        simp only [stepChars] at h1
        split at h1
        · cases h1; omega
        · split at h1
          · cases h1; rw [List.length_take]; omega
          · cases h1
      rw [e2]
      have s2 : stepChars (max (max k r.start) r.stop - (cur + pre.length)) s1' =
          stepChars (r.stop - (cur + pre.length)) s1' := by
        by_cases hc : r.stop ≤ cur + pre.length
        · rw [stepChars, stepChars, if_pos (by omega), if_pos (by omega)]
        · rw [show max (max k r.start) r.stop = r.stop by omega]
      rw [s2]
      cases h2 : stepChars (r.stop - (cur + pre.length)) s1' with
      | ok y =>
        obtain ⟨skip, s2'⟩ := y
        dsimp only
        have hskip : r.stop ≤ cur + pre.length + skip.length := by
          simp only [stepChars] at h2
          split at h2
          · cases h2; omega
          · split at h2
            · cases h2; rw [List.length_take]; omega
            · cases h2
        obtain ⟨h3, h4⟩ := rmLoop_clipped rs (cur + pre.length + skip.length) (max (max k r.start) r.stop) s2'
          (by omega)
        exact ⟨by rw [h3], h4⟩
      | error y =>
        obtain ⟨n, chars⟩ := y
        dsimp only
        have hn : n = r.stop - (cur + pre.length) - s1'.length ∧ chars = s1'.length ∧ 0 < n := by
          simp only [stepChars] at h2
          split at h2
          · cases h2
          · split at h2
            · cases h2
            · cases h2; omega
        refine ⟨rfl, ⟨rfl, rfl, by dsimp only; omega, max (max k r.start) r.stop, by dsimp only; omega, rfl⟩⟩

theorem rmMap_clipped {st st' : RmState} (h : Clipped st st') (s : Str) :
    (rmMap st' s).1 = (rmMap st s).1 ∧ Clipped (rmMap st s).2 (rmMap st' s).2 := by
  obtain ⟨h1, h2, h3, k, h4, h5⟩ := h
  unfold rmMap
  rw [h1, h2, h5]
  split
  · rename_i hr
    cases h6 : stepChars st.remove s with
    | ok x =>
      obtain ⟨skip, rest⟩ := x
      dsimp only
      have hskip : (skip.length : Int) = st.remove := by
        simp only [stepChars] at h6
        rw [if_neg (by omega)] at h6
        split at h6
        · cases h6; rw [List.length_take]; omega
        · cases h6
      exact rmLoop_clipped _ _ _ _ (by omega)
    | error x =>
      obtain ⟨n, chars⟩ := x
      dsimp only
      have hn : n = st.remove - s.length ∧ chars = s.length ∧ 0 < n := by
        simp only [stepChars] at h6
        rw [if_neg (by omega)] at h6
        split at h6
        · cases h6
        · cases h6; omega
      exact ⟨rfl, ⟨rfl, rfl, by dsimp only; omega, k, by dsimp only; omega, rfl⟩⟩
  · exact rmLoop_clipped _ _ _ _ (by omega)

theorem mapCode_clipped (n : LNode) {st st' : RmState} (h : Clipped st st') :
    (n.mapCode rmMap st').1 = (n.mapCode rmMap st).1 ∧ Clipped (n.mapCode rmMap st).2 (n.mapCode rmMap st').2 := by
  cases n with
  | code s => obtain ⟨h1, h2⟩ := rmMap_clipped h s; exact ⟨by simp only [LNode.mapCode, h1], h2⟩
  | source x => exact ⟨rfl, h⟩
  | single x => obtain ⟨h1, h2⟩ := rmMap_clipped h x.code; exact ⟨by simp only [LNode.mapCode, h1], h2⟩
  | str s => exact ⟨rfl, h⟩
  | map s => exact ⟨rfl, h⟩
  | idx s => exact ⟨rfl, h⟩

theorem mapLoop_clipped : ∀ (ns rev : List LNode) {st st' : RmState}, Clipped st st' →
    (mapLoop rmMap st' rev ns).1 = (mapLoop rmMap st rev ns).1 ∧
    Clipped (mapLoop rmMap st rev ns).2 (mapLoop rmMap st' rev ns).2
  | [], rev, st, st', h => ⟨rfl, h⟩
  | n :: ns, rev, st, st', h => by
    obtain ⟨h1, h2⟩ := mapCode_clipped n h
    rw [mapLoop, mapLoop]
    dsimp only
    rw [h1]
    exact mapLoop_clipped ns _ h2

/-- The list map of a `ReplaceSource`: an edit takes only what the edits before it left over. -/
theorem replaceListMap_clipped (m : Slm) (sorted : List Repl) :
    replaceListMap m (clipRepls 0 sorted.reverse).reverse = replaceListMap m sorted := by
  have h0 : Clipped ⟨0, sorted.reverse, 0⟩ ⟨0, clipRepls 0 sorted.reverse, 0⟩ :=
    ⟨rfl, rfl, by simp, 0, by simp, rfl⟩
  obtain ⟨h1, h2⟩ := mapLoop_clipped (m.map LNode.normalized).flatten [] h0
  obtain ⟨k, -, h3⟩ := h2.pending
  unfold replaceListMap slmMapGenerated
  dsimp only
  rw [List.reverse_reverse, h1, h3, clipRepls_texts]

theorem clipRepls_reverse (sorted : List Repl) :
    ((clipRepls 0 sorted.reverse).reverse.map Repl.edit).reverse = clipped 0 (sorted.map Repl.edit).reverse := by
  rw [List.map_reverse, List.reverse_reverse, clipRepls_edits, List.map_reverse]

/-! Overlapping and nested edits. -/

example : clipped 0 [⟨1, 4, "X".toList⟩, ⟨2, 6, "Y".toList⟩] = [⟨1, 4, "X".toList⟩, ⟨4, 6, "Y".toList⟩] := by
  decide +kernel
example : clipped 0 [⟨2, 4, "X".toList⟩, ⟨1, 6, "Y".toList⟩] = [⟨2, 4, "X".toList⟩, ⟨4, 6, "Y".toList⟩] := by
  decide +kernel

end WS
