import Verif.Proofs.FromString
/-! # `from_string_with_source_map_generator` attributes characters as the mappings do -/

namespace WS
open Spec

/-- What holds for an ordered mapping list, after the mappings `done`. -/
structure FsInv (code : Str) (done : List Mapping) (st : FsState) : Prop extends FsText code st where
  cut : Cut (childMarks st.children) st.lastPos st.next.text (st.lines.map Prod.fst)
  attr : Attributes (done.map Mapping.point) (childMarks st.children)
  leafOk : ∀ l ∈ SmNode.leavesList none st.children, LeafOk l

theorem lookup_after {done : List Mapping} {lm : Mapping} {c : Nat} (hd : done.getLast? = some lm)
    (hc : lm.generated.2 ≤ c) : lookup (done.map Mapping.point) lm.generated.1 c = lm.point.origin := by
  have hne : done ≠ [] := by rintro rfl; cases hd
  have h1 := List.dropLast_concat_getLast hne
  rw [List.getLast?_eq_some_getLast hne] at hd
  rw [Option.some.inj hd] at h1
  rw [← h1, List.map_append]
  exact lookup_snoc_here rfl hc

theorem lookup_before {done : List Mapping} {l : Nat} (hd : ∀ m ∈ done, m.generated.1 < l) (c : Nat) :
    lookup (done.map Mapping.point) l c = none := by
  apply lookup_none
  intro p hp
  obtain ⟨m, hm, rfl⟩ := List.mem_map.1 hp
  have := hd m hm
  simp only [Mapping.point]
  omega

/-- Finish the current line with origin `o`. -/
theorem FsInv.pop {code : Str} {done : List Mapping} {st : FsState} (h : FsInv code done st)
    {ch : List SmNode} {o : Option Origin}
    (hc : childMarks ch = childMarks st.children ++ mark o st.next.text)
    (hleaf : ∀ l ∈ SmNode.leavesList none ch, LeafOk l)
    (hl : ∀ c, st.lastPos.2 ≤ c → lookup (done.map Mapping.point) st.lastPos.1 c = o)
    (lm : Option Mapping) :
    FsInv code done { children := ch, lastPos := (st.lastPos.1 + 1, 0), lastMapping := lm,
                      next := (popLine st.lines).1, lines := (popLine st.lines).2 } := by
  obtain ⟨p1, p2, _⟩ := popLine_spec st.lines h.lines
  refine ⟨h.toFsText.pop hc _ _, ?_, ?_, hleaf⟩
  · simp only [hc, p1, p2]
    exact h.cut.line o
  · simp only [hc]
    have hcut : Cut (childMarks st.children) st.lastPos (st.next.text ++ []) (st.lines.map Prod.fst) := by
      rw [List.append_nil]; exact h.cut
    exact hcut.attr h.attr o (fun j _ => hl _ (by omega))

/-- Skip lines before the next mapping. -/
theorem FsInv.skip {code : Str} {done : List Mapping} : ∀ (n : Nat) {st : FsState},
    FsInv code done st → st.lastPos.2 = 0 →
    (∀ m ∈ done, m.generated.1 < st.lastPos.1) →
    FsInv code done (skipLines n st) ∧ (skipLines n st).lastPos = (st.lastPos.1 + n, 0) ∧
      (skipLines n st).lastMapping = st.lastMapping := by
  intro n
  induction n with
  | zero => intro st h h0 _; exact ⟨h, Prod.ext rfl h0, rfl⟩
  | succ n ih =>
    intro st h h0 hd
    rw [skipLines]
    dsimp only
    have hp : (st.lastPos.1 + 1, st.lastPos.2) = (st.lastPos.1 + 1, 0) := by rw [h0]
    rw [hp]
    obtain ⟨k1, k2, k3⟩ := ih (h.pop (childMarks_addStr _ _) (leafOk_addStr h.leafOk _)
      (fun c _ => lookup_before hd c) st.lastMapping) rfl
      (fun m hm => by have := hd m hm; simp only; omega)
    refine ⟨k1, ?_, k3⟩
    rw [k2]; simp only; congr 1; omega

/-- Consume up to column `c` of the current line with origin `o`. -/
theorem FsInv.split {code : Str} {done : List Mapping} {st : FsState} (h : FsInv code done st)
    {c : Nat} (hcl : st.lastPos.2 ≤ c) {ch : List SmNode} {o : Option Origin}
    (hc : childMarks ch = childMarks st.children ++ mark o (st.next.text.take (c - st.lastPos.2)))
    (hleaf : ∀ l ∈ SmNode.leavesList none ch, LeafOk l)
    (hl : ∀ k, st.lastPos.2 ≤ k → k < c → lookup (done.map Mapping.point) st.lastPos.1 k = o)
    (lm : Option Mapping) {sbc : Bool} (hs : SbcOk (st.next.text.drop (c - st.lastPos.2)) sbc) :
    FsInv code done { children := ch, lastPos := (st.lastPos.1, c), lastMapping := lm,
                      next := { st.next with text := st.next.text.drop (c - st.lastPos.2), sbc },
                      lines := st.lines } := by
  have ht : ((c - st.lastPos.2 : Nat) : Int).toNat = c - st.lastPos.2 := by simp
  have := h.toFsText.split ((c - st.lastPos.2 : Nat) : Int) (o := o) (ch := ch) (by rw [ht]; exact hc)
    (st.lastPos.1, c) lm (sbc := sbc) (by rw [ht]; exact hs)
  rw [ht] at this
  refine ⟨this, ?_, ?_, hleaf⟩
  · simp only [hc]
    exact h.cut.split o hcl
  · simp only [hc]
    have hcut : Cut (childMarks st.children) st.lastPos
        (st.next.text.take (c - st.lastPos.2) ++ st.next.text.drop (c - st.lastPos.2))
        (st.lines.map Prod.fst) := by
      rw [List.take_append_drop]; exact h.cut
    refine hcut.attr h.attr o (fun j hj => hl _ (by omega) ?_)
    simp at hj; omega

/-- The mapping at the current position is done. -/
theorem FsInv.next {code : Str} {done : List Mapping} {st : FsState} (h : FsInv code done st)
    {m : Mapping} (hm : m.generated = st.lastPos) : FsInv code (done ++ [m]) st := by
  refine { h with attr := ?_ }
  rw [List.map_append]
  exact h.cut.later h.attr hm

theorem fsTail_inv {code : Str} {done : List Mapping} {st : FsState} (h : FsInv code done st)
    {m : Mapping} (h0 : st.lastPos.2 = 0) (hd : ∀ x ∈ done, x.generated.1 < st.lastPos.1)
    (hm : st.lastPos.1 ≤ m.generated.1) :
    ∃ st', fsTail st m = .ok st' ∧ FsInv code (done ++ [m]) st' ∧ st'.lastPos = m.generated ∧
      st'.lastMapping = some m := by
  unfold fsTail
  dsimp only
  obtain ⟨hk, hp, _⟩ := h.skip (m.generated.1 - st.lastPos.1) h0 hd
  generalize skipLines (m.generated.1 - st.lastPos.1) st = s at hk hp ⊢
  have hp1 : s.lastPos.1 = m.generated.1 := by rw [hp]; simp only; omega
  have hp2 : s.lastPos.2 = 0 := by rw [hp]
  have hd' : ∀ x ∈ done, x.generated.1 < s.lastPos.1 := fun x hx => by
    have := hd x hx; omega
  split
  · obtain ⟨r, h1, h2, h3, h4⟩ := splitStr_sbc hk.sbc m.generated.2
    rw [h1]
    have ht : ((m.generated.2 : Nat) : Int).toNat = m.generated.2 - s.lastPos.2 := by rw [hp2]; simp
    rw [ht] at h2 h3
    have := hk.split (c := m.generated.2) (by omega) (childMarks_addStr _ _)
      (leafOk_addStr hk.leafOk _) (fun k _ _ => lookup_before hd' k) (some m)
      (by rw [← h3]; exact h4)
    rw [← h2, ← h3] at this
    refine ⟨_, rfl, this.next ?_, ?_, rfl⟩
    · exact Prod.ext hp1.symm rfl
    · exact Prod.ext hp1 rfl
  · rename_i hlt
    have hz : m.generated.2 = 0 := by omega
    have hpos : s.lastPos = m.generated := Prod.ext hp1 (by rw [hp2, hz])
    refine ⟨_, rfl, ?_, hpos, rfl⟩
    have := hk.next (m := m) hpos.symm
    exact ⟨⟨this.text, this.sbc, this.lines, this.exist⟩, this.cut, this.attr, this.leafOk⟩

theorem fsStep_inv {code : Str} {done : List Mapping} {st : FsState} (h : FsInv code done st)
    {m : Mapping} (hlast : st.lastMapping = done.getLast?)
    (hval : ∀ x ∈ done, x.Valid)
    (hpos : (done = [] → st.lastPos = (1, 0)) ∧ ∀ lm, done.getLast? = some lm → lm.generated = st.lastPos)
    (hd : ∀ x ∈ done, Point.Le x.point m.point) (hdone : (done.map Mapping.point).Pairwise Point.Le)
    (hm : 1 ≤ m.generated.1) :
    ∃ st', fsStep st m = .ok st' ∧ FsInv code (done ++ [m]) st' ∧ st'.lastPos = m.generated ∧
      st'.lastMapping = some m := by
  unfold fsStep
  cases hdl : done.getLast? with
  | none =>
    rw [hdl] at hlast
    rw [hlast]
    simp only
    have hdn : done = [] := by simpa using hdl
    have hp := hpos.1 hdn
    apply fsTail_inv h (by rw [hp]) (by rw [hdn]; simp)
    rw [hp]; exact hm
  | some lm =>
    rw [hdl] at hlast
    rw [hlast]
    simp only
    have hlm := hpos.2 lm hdl
    have hlmem : lm ∈ done := List.mem_of_getLast? hdl
    have hle := hd lm hlmem
    simp only [Point.Le, Mapping.point] at hle
    have hmax : ∀ x ∈ done, x.generated.1 ≤ st.lastPos.1 := by
      intro x hx
      rw [← hlm]
      have hne : done ≠ [] := List.ne_nil_of_mem hx
      have h1 := List.dropLast_concat_getLast hne
      have h2 := hdl
      rw [List.getLast?_eq_some_getLast hne] at h2
      rw [Option.some.inj h2] at h1
      rw [← h1] at hx hdone
      rcases List.mem_append.1 hx with hx | hx
      · rw [List.map_append, List.pairwise_append] at hdone
        have := hdone.2.2 x.point (List.mem_map_of_mem hx) lm.point (by simp)
        simp only [Point.Le, Mapping.point] at this
        omega
      · simp at hx; subst hx; exact Nat.le_refl _
    split
    · rename_i hlt
      refine fsTail_inv (h.pop (childMarks_addMapping _ lm _)
        (leafOk_addMapping h.leafOk (hval lm hlmem) _) (fun c hc => ?_) _) rfl ?_ ?_
      · rw [← hlm] at hc ⊢; exact lookup_after hdl hc
      · intro x hx
        have := hmax x hx
        simp only; omega
      · simp only; omega
    · rename_i hlt
      have hcl : st.lastPos.2 ≤ m.generated.2 := by rw [← hlm]; rw [← hlm] at hlt; omega
      have hl : st.lastPos.1 = m.generated.1 := by rw [← hlm]; rw [← hlm] at hlt; omega
      obtain ⟨r, h1, h2, h3, h4⟩ := splitStr_sbc h.sbc ((m.generated.2 : Int) - st.lastPos.2)
      rw [h1]
      have ht : ((m.generated.2 : Int) - (st.lastPos.2 : Int)).toNat = m.generated.2 - st.lastPos.2 := by
        omega
      rw [ht] at h2 h3
      have := h.split hcl (childMarks_addMapping _ lm _)
        (leafOk_addMapping h.leafOk (hval lm hlmem) _)
        (fun k hk _ => by rw [← hlm] at hk ⊢; exact lookup_after hdl hk) (some m)
        (by rw [← h3]; exact h4)
      rw [← h2, ← h3] at this
      exact ⟨_, rfl, this.next (Prod.ext hl.symm rfl), Prod.ext hl rfl, rfl⟩

theorem fsLoop_inv {code : Str} : ∀ (ms done : List Mapping) {st : FsState}, FsInv code done st →
    st.lastMapping = done.getLast? →
    ((done = [] → st.lastPos = (1, 0)) ∧ ∀ lm, done.getLast? = some lm → lm.generated = st.lastPos) →
    ((done ++ ms).map Mapping.point).Pairwise Point.Le → (∀ m ∈ done ++ ms, m.Valid) →
    ∃ st', fsLoop st ms = .ok st' ∧ FsInv code (done ++ ms) st' ∧
      st'.lastMapping = (done ++ ms).getLast? ∧
      ((done ++ ms = [] → st'.lastPos = (1, 0)) ∧
        ∀ lm, (done ++ ms).getLast? = some lm → lm.generated = st'.lastPos) := by
  intro ms
  induction ms with
  | nil => intro done st h hl hp _ _; exact ⟨st, rfl, by simpa using h, by simpa using hl, by simpa using hp⟩
  | cons m ms ih =>
    intro done st h hl hp ho hv
    have ho' := ho
    rw [List.map_append, List.pairwise_append] at ho
    obtain ⟨st1, e1, h1, hp1, hl1⟩ := fsStep_inv h (m := m) hl (fun x hx => hv x (by simp [hx])) hp
      (fun x hx => ho.2.2 _ (List.mem_map_of_mem hx) _ (by simp)) ho.1 (hv m (by simp)).1
    have hass : done ++ m :: ms = (done ++ [m]) ++ ms := by simp
    rw [hass] at ho' hv ⊢
    obtain ⟨st2, e2, k1, k2, k3⟩ := ih (done ++ [m]) h1 (by rw [hl1]; simp)
      ⟨fun hh => by simp at hh, fun lm hh => by simp at hh; rw [← hh, hp1]⟩ ho' hv
    exact ⟨st2, by rw [fsLoop, e1]; exact e2, k1, k2, k3⟩

/-- The remaining lines, all without origin. -/
theorem Cut.rest {ps : List Point} {o : Option Origin} : ∀ (lines : List Str) {M : Marked}
    {pos : Nat × Nat} {next : Str}, Cut M pos next lines → Attributes ps M →
    (∀ c, pos.2 ≤ c → lookup ps pos.1 c = o) → (∀ l c, pos.1 < l → lookup ps l c = none) →
    Attributes ps (M ++ mark o next ++ mark none lines.flatten) := by
  intro lines
  induction lines generalizing o with
  | nil =>
    intro M pos next h ha hl _
    simp only [List.flatten_nil]
    have hcut : Cut M pos (next ++ []) [] := by rw [List.append_nil]; exact h
    have := hcut.attr ha o (fun j _ => hl _ (by omega))
    simpa [mark] using this
  | cons l ls ih =>
    intro M pos next h ha hl hb
    have hcut : Cut M pos (next ++ []) (l :: ls) := by rw [List.append_nil]; exact h
    have h1 := hcut.attr ha o (fun j _ => hl _ (by omega))
    have h2 := ih (o := none) (h.line o) h1 (fun c _ => hb _ _ (by simp))
      (fun l' c hc => hb _ _ (by simp only at hc; omega))
    simpa [mark] using h2

theorem fsFinish_inv {code : Str} {done : List Mapping} {st : FsState} (h : FsInv code done st)
    (hlast : st.lastMapping = done.getLast?)
    (hval : ∀ x ∈ done, x.Valid)
    (hpos : (done = [] → st.lastPos = (1, 0)) ∧ ∀ lm, done.getLast? = some lm → lm.generated = st.lastPos)
    (hdone : (done.map Mapping.point).Pairwise Point.Le) :
    Attributes (done.map Mapping.point) (childMarks (fsFinish st)) ∧
    ∀ l ∈ SmNode.leavesList none (fsFinish st), LeafOk l := by
  unfold fsFinish
  split
  · cases hdl : done.getLast? with
    | none =>
      rw [hdl] at hlast
      rw [hlast]
      simp only
      have hdn : done = [] := by simpa using hdl
      refine ⟨?_, leafOk_addStr h.leafOk _⟩
      rw [childMarks_addStr]
      have hnone : ∀ l c, lookup (done.map Mapping.point) l c = none := by
        intro l c; rw [hdn]; rfl
      have := h.cut.rest (o := none) _ h.attr (fun c _ => hnone _ _) (fun l c _ => hnone _ _)
      simpa [mark] using this
    | some lm =>
      rw [hdl] at hlast
      rw [hlast]
      simp only
      have hlm := hpos.2 lm hdl
      have hlmem : lm ∈ done := List.mem_of_getLast? hdl
      refine ⟨?_, leafOk_addStr (leafOk_addMapping h.leafOk (hval lm hlmem) _) _⟩
      rw [childMarks_addStr, childMarks_addMapping]
      refine h.cut.rest _ h.attr (fun c hc => ?_) (fun l c hl => ?_)
      · rw [← hlm] at hc ⊢; exact lookup_after hdl hc
      · apply lookup_before
        intro x hx
        rw [← hlm] at hl
        have hne : done ≠ [] := List.ne_nil_of_mem hx
        have h1 := List.dropLast_concat_getLast hne
        have h2 := hdl
        rw [List.getLast?_eq_some_getLast hne] at h2
        rw [Option.some.inj h2] at h1
        rw [← h1] at hx hdone
        rcases List.mem_append.1 hx with hx | hx
        · rw [List.map_append, List.pairwise_append] at hdone
          have := hdone.2.2 x.point (List.mem_map_of_mem hx) lm.point (by simp)
          simp only [Point.Le, Mapping.point] at this
          omega
        · simp at hx; subst hx; exact hl
  · exact ⟨h.attr, h.leafOk⟩

theorem fromString_attr (code : Str) (g : Generator)
    (ho : (g.mappings.list.map Mapping.point).Pairwise Point.Le) (hv : ∀ m ∈ g.mappings.list, m.Valid) :
    ∃ n, fromStringWithGenerator code g = .ok n ∧ n.text = code ∧
      Attributes (g.mappings.list.map Mapping.point) n.marks ∧ ∀ l ∈ n.leaves, LeafOk l := by
  have hinit : FsInv code []
    { children := [], lastPos := (1, 0), lastMapping := none,
      next := (popLine (codeLines code)).1, lines := (popLine (codeLines code)).2 } := by
    refine ⟨fsInit_text code none, ?_, fun k c o hk => by simp [childMarks, SmNode.leavesList, marked] at hk,
      fun l hl => by simp [SmNode.leavesList] at hl⟩
    obtain ⟨h1, h2, h3, _⟩ := codeLines_spec code
    obtain ⟨k1, k2, _⟩ := popLine_spec _ h3
    simp only [k1, k2]
    cases hcl : codeLines code with
    | nil =>
      exact ⟨fun k hk => by simp [childMarks, SmNode.leavesList, marked] at hk, fun h => absurd rfl h,
        by simp [NlEnd], fun h => absurd rfl h, trivial⟩
    | cons x xs =>
      rw [hcl] at h2
      refine ⟨fun k hk => by simp [childMarks, SmNode.leavesList, marked] at hk, fun _ => rfl, h2.2.1,
        fun hne => ?_, h2.2.2.2⟩
      exact posFrom_line_end h2.2.1 (h2.2.2.1 hne)
  obtain ⟨st, e, h, hl, hp⟩ := fsLoop_inv g.mappings.list [] hinit rfl
    ⟨fun _ => rfl, fun lm h => by cases h⟩ (by simpa using ho) (by simpa using hv)
  simp only [List.nil_append] at h hl hp
  obtain ⟨h1, h2⟩ := fsFinish_inv h hl hv hp ho
  refine ⟨.node none none none g.contents (fsFinish st),
    by unfold fromStringWithGenerator; dsimp only; rw [e], ?_, h1, h2⟩
  rw [← SmNode.marks_text]
  exact fsFinish_text h.toFsText

end WS
