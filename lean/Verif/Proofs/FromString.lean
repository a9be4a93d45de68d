import Verif.Proofs.Walk
/-! # `from_string_with_source_map_generator` -/

namespace WS
open Spec

/-! ## Splitting -/

theorem splitAtByte_single : ∀ (s : Str) (n : Nat), (∀ c ∈ s, c.utf8Size = 1) → n ≤ s.length →
    splitAtByte s n = some (s.take n, s.drop n) := by
  intro s
  induction s with
  | nil => intro n _ h; have : n = 0 := by simpa using h
           subst this; rfl
  | cons c s ih =>
    intro n hc hn
    cases n with
    | zero => rfl
    | succ n =>
      have h1 := hc c (by simp)
      rw [splitAtByte, h1, if_pos (by omega), Nat.add_sub_cancel,
        ih n (fun d hd => hc d (by simp [hd])) (by simpa using hn)]
      · rfl
      · intro h; cases h

theorem blen_single : ∀ (s : Str), (∀ c ∈ s, c.utf8Size = 1) → blen s = s.length := by
  intro s
  induction s with
  | nil => intro _; rfl
  | cons c s ih =>
    intro h
    have h1 := h c (by simp)
    have h2 := ih (fun d hd => h d (by simp [hd]))
    unfold blen at h2 ⊢
    simp only [List.map_cons, List.sum_cons, List.length_cons, h1, h2]
    omega

/-- The text is single-byte if the flag says so. -/
def SbcOk (s : Str) (sbc : Bool) : Prop := sbc = true → ∀ c ∈ s, c.utf8Size = 1

theorem splitStr_sbc {s : Str} {sbc : Bool} (h : SbcOk s sbc) (pos : Int) :
    ∃ r, splitStr s pos sbc = .ok r ∧ r.orAll.1 = s.take pos.toNat ∧
      r.orAll.2.1 = s.drop pos.toNat ∧ SbcOk r.orAll.2.1 r.orAll.2.2.2 := by
  unfold splitStr
  by_cases hp : pos ≤ 0
  · rw [if_pos hp]
    have : pos.toNat = 0 := by omega
    exact ⟨_, rfl, by simp [SplitRes.orAll, this], by simp [SplitRes.orAll, this], h⟩
  · rw [if_neg hp]
    dsimp only
    cases sbc with
    | true =>
      have hs := h rfl
      rw [if_pos rfl]
      rw [blen_single s hs]
      by_cases hn : pos.toNat < s.length
      · rw [if_pos hn, splitAtByte_single s _ hs (Nat.le_of_lt hn)]
        exact ⟨_, rfl, rfl, rfl, fun _ c hc => hs c (List.mem_of_mem_drop hc)⟩
      · rw [if_neg hn]
        refine ⟨_, rfl, ?_, ?_, fun _ c hc => (by simp [SplitRes.orAll] at hc)⟩
        · exact (List.take_of_length_le (l := s) (by omega)).symm
        · exact (List.drop_of_length_le (l := s) (by omega)).symm
    | false =>
      rw [if_neg (by simp)]
      by_cases hn : pos.toNat ≤ s.length
      · rw [if_pos hn]
        exact ⟨_, rfl, rfl, rfl, fun hh => by cases hh⟩
      · rw [if_neg hn]
        refine ⟨_, rfl, ?_, ?_, fun _ c hc => (by simp [SplitRes.orAll] at hc)⟩
        · exact (List.take_of_length_le (l := s) (by omega)).symm
        · exact (List.drop_of_length_le (l := s) (by omega)).symm

/-! ## Lines -/

/-- A newline occurs at most at the end. -/
def NlEnd (s : Str) : Prop := '\n' ∉ s.dropLast

/-- Lines of a text: none is empty, newlines end them, and all but the last end with one. -/
def LinesOk : List Str → Prop
  | [] => True
  | l :: ls => l ≠ [] ∧ NlEnd l ∧ (ls ≠ [] → l.getLast? = some '\n') ∧ LinesOk ls

theorem codeLines_spec : ∀ (s : Str), ((codeLines s).map Prod.fst).flatten = s ∧
    LinesOk ((codeLines s).map Prod.fst) ∧ (∀ l ∈ codeLines s, SbcOk l.1 l.2) ∧
    (s ≠ [] → codeLines s ≠ []) := by
  intro s
  induction s with
  | nil => simp [codeLines, LinesOk]
  | cons c s ih =>
    obtain ⟨h1, h2, h3, h4⟩ := ih
    rw [codeLines]
    have hsize : ∀ d : Char, d.utf8Size ≤ 1 → d.utf8Size = 1 := by
      intro d hd
      have := d.utf8Size_pos
      omega
    split
    · rename_i hc
      subst hc
      refine ⟨by simp [h1], ⟨by simp, by simp [NlEnd], fun _ => rfl, h2⟩, ?_, by simp⟩
      intro l hl
      rcases List.mem_cons.1 hl with rfl | hl
      · intro hs d hd
        simp only [decide_eq_true_eq] at hs
        simp at hd; subst hd; exact hsize _ hs
      · exact h3 l hl
    · rename_i hc
      cases hcl : codeLines s with
      | nil =>
        have hs : s = [] := by
          cases s with
          | nil => rfl
          | cons d s => exact absurd hcl (h4 (by simp))
        subst hs
        refine ⟨by simp, ⟨by simp, by simp [NlEnd], fun h => absurd rfl h, trivial⟩, ?_, by simp⟩
        intro l hl
        simp at hl; subst hl
        intro hs d hd
        simp only [decide_eq_true_eq] at hs
        simp at hd; subst hd; exact hsize _ hs
      | cons x xs =>
        obtain ⟨l, b⟩ := x
        rw [hcl] at h1 h2 h3
        simp only [List.map_cons, List.flatten_cons] at h1
        obtain ⟨k1, k2, k3, k4⟩ := h2
        refine ⟨by simp [h1], ⟨by simp, ?_, ?_, k4⟩, ?_, by simp⟩
        · unfold NlEnd at k2 ⊢
          rw [List.dropLast_cons_of_ne_nil k1]
          simp only [List.mem_cons, not_or]
          exact ⟨fun h => hc h.symm, k2⟩
        · intro h
          rw [List.getLast?_cons, k3 h]; rfl
        · intro y hy
          rcases List.mem_cons.1 hy with rfl | hy
          · intro hs d hd
            simp only [Bool.and_eq_true, decide_eq_true_eq] at hs
            rcases List.mem_cons.1 hd with rfl | hd
            · exact hsize _ hs.1
            · exact h3 (l, b) (by simp) hs.2 d hd
          · exact h3 y (by simp [hy])

/-! ## Positions in a line -/

theorem posFrom_noNl : ∀ (x : Str) (p : Nat × Nat), '\n' ∉ x → posFrom p x = (p.1, p.2 + x.length) := by
  intro x
  induction x with
  | nil => intro p _; rfl
  | cons c x ih =>
    intro p h
    simp only [List.mem_cons, not_or] at h
    show posFrom (advance p c) x = _
    rw [ih _ h.2, advance, if_neg (fun e => h.1 e.symm)]
    simp only [List.length_cons]
    congr 1
    omega

theorem posFrom_line_end {x : Str} {p : Nat × Nat} (h : NlEnd x) (hl : x.getLast? = some '\n') :
    posFrom p x = (p.1 + 1, 0) := by
  have hx : x = x.dropLast ++ ['\n'] := by
    have hne : x ≠ [] := by rintro rfl; cases hl
    have h1 := List.dropLast_concat_getLast hne
    rw [List.getLast?_eq_some_getLast hne] at hl
    rw [Option.some.inj hl] at h1
    exact h1.symm
  rw [hx, posFrom_append, posFrom_noNl _ _ h]
  rfl

theorem NlEnd.prefix {x y : Str} (h : NlEnd (x ++ y)) (hy : y ≠ []) : '\n' ∉ x := by
  unfold NlEnd at h
  rw [List.dropLast_append_of_ne_nil hy] at h
  exact fun hx => h (List.mem_append.2 (.inl hx))

theorem NlEnd.suffix {x y : Str} (h : NlEnd (x ++ y)) : NlEnd y := by
  by_cases hy : y = []
  · subst hy; simp [NlEnd]
  · unfold NlEnd at h ⊢
    rw [List.dropLast_append_of_ne_nil hy] at h
    exact fun hx => h (List.mem_append.2 (.inr hx))

/-- How far the text is consumed: `M` is done, `next` is the rest of the current line, which goes
on at `pos`, then `lines` follow. -/
structure Cut (M : Marked) (pos : Nat × Nat) (next : Str) (lines : List Str) : Prop where
  before : ∀ k, k < M.length → PosLt (posAfter ((M.take k).map Prod.fst)) pos
  at_ : next ≠ [] → posAfter (M.map Prod.fst) = pos
  inner : NlEnd next
  ends : lines ≠ [] → posFrom (posAfter (M.map Prod.fst)) next = (pos.1 + 1, 0)
  lines : LinesOk lines

/-- All characters of a piece get the same origin. -/
def mark (o : Option Origin) (x : Str) : Marked := x.map fun c => (c, o)

theorem mark_fst (o : Option Origin) (x : Str) : (mark o x).map Prod.fst = x := by
  simp [mark, Function.comp_def]

theorem Cut.charPos {M : Marked} {pos : Nat × Nat} {x y : Str} {lines : List Str}
    (h : Cut M pos (x ++ y) lines) {j : Nat} (hj : j < x.length) :
    posAfter (M.map Prod.fst ++ x.take j) = (pos.1, pos.2 + j) := by
  have hne : x ++ y ≠ [] := by
    intro hh
    rw [(List.append_eq_nil_iff.1 hh).1] at hj
    simp at hj
  unfold posAfter
  rw [posFrom_append]
  have := h.at_ hne
  unfold posAfter at this
  rw [this, posFrom_noNl]
  · rw [List.length_take, Nat.min_eq_left (Nat.le_of_lt hj)]
  · have hin := h.inner
    have e : x ++ y = x.take j ++ (x.drop j ++ y) := by
      rw [← List.append_assoc, List.take_append_drop]
    rw [e] at hin
    apply hin.prefix
    intro hh
    have := congrArg List.length (List.append_eq_nil_iff.1 hh).1
    simp at this; omega

theorem take_mark {M : Marked} {o : Option Origin} {x : Str} {k : Nat} (h : M.length ≤ k) :
    ((M ++ mark o x).take k).map Prod.fst = M.map Prod.fst ++ x.take (k - M.length) := by
  rw [List.take_append, List.take_of_length_le h, List.map_append, List.map_take, mark_fst]

/-- Consuming a piece of the current line. -/
theorem Cut.before_append {M : Marked} {pos pos' : Nat × Nat} {x y : Str} {lines : List Str}
    (h : Cut M pos (x ++ y) lines) (o : Option Origin) (h1 : pos = pos' ∨ PosLt pos pos')
    (h2 : ∀ j, j < x.length → PosLt (pos.1, pos.2 + j) pos') :
    ∀ k, k < (M ++ mark o x).length → PosLt (posAfter (((M ++ mark o x).take k).map Prod.fst)) pos' := by
  intro k hk
  rcases Nat.lt_or_ge k M.length with hl | hl
  · rw [List.take_append_of_le_length (Nat.le_of_lt hl)]
    have := h.before k hl
    rcases h1 with rfl | h1
    · exact this
    · exact this.trans h1
  · rw [take_mark hl]
    have hj : k - M.length < x.length := by
      simp [mark] at hk; omega
    rw [h.charPos hj]
    exact h2 _ hj

/-- The line is finished. -/
theorem Cut.line {M : Marked} {pos : Nat × Nat} {next : Str} {lines : List Str}
    (h : Cut M pos next lines) (o : Option Origin) :
    Cut (M ++ mark o next) (pos.1 + 1, 0) (lines.headD []) lines.tail := by
  have h' : Cut M pos (next ++ []) lines := by rw [List.append_nil]; exact h
  constructor
  · exact h'.before_append o (.inr (.inl (by simp))) (fun j _ => .inl (by simp))
  · intro hne
    have hl : lines ≠ [] := by rintro rfl; exact hne rfl
    rw [List.map_append, mark_fst, ← h.ends hl]
    unfold posAfter; rw [posFrom_append]
  · cases lines with
    | nil => simp [NlEnd]
    | cons l ls => exact h.lines.2.1
  · intro hne
    cases lines with
    | nil => exact absurd rfl hne
    | cons l ls =>
      have := h.ends (by simp)
      have e : posAfter ((M ++ mark o next).map Prod.fst) = (pos.1 + 1, 0) := by
        rw [List.map_append, mark_fst, ← this]
        unfold posAfter; rw [posFrom_append]
      rw [e]
      exact posFrom_line_end h.lines.2.1 (h.lines.2.2.1 hne)
  · cases lines with
    | nil => trivial
    | cons l ls => exact h.lines.2.2.2

/-- The line is consumed up to column `c`. -/
theorem Cut.split {M : Marked} {pos : Nat × Nat} {next : Str} {lines : List Str}
    (h : Cut M pos next lines) (o : Option Origin) {c : Nat} (hc : pos.2 ≤ c) :
    Cut (M ++ mark o (next.take (c - pos.2))) (pos.1, c) (next.drop (c - pos.2)) lines := by
  have h' : Cut M pos (next.take (c - pos.2) ++ next.drop (c - pos.2)) lines := by
    rw [List.take_append_drop]; exact h
  constructor
  · refine h'.before_append o ?_ (fun j hj => .inr ⟨rfl, ?_⟩)
    · rcases Nat.lt_or_ge pos.2 c with hl | hl
      · exact .inr (.inr ⟨rfl, hl⟩)
      · exact .inl (Prod.ext rfl (by simp; omega))
    · simp at hj
      simp; omega
  · intro hne
    have hlen : c - pos.2 < next.length := by
      rcases Nat.lt_or_ge (c - pos.2) next.length with hl | hl
      · exact hl
      · exact absurd (List.drop_of_length_le hl) hne
    have hin := h'.inner.prefix hne
    have hat := h.at_ (by rintro rfl; simp at hne)
    rw [List.map_append, mark_fst]
    unfold posAfter at hat ⊢
    rw [posFrom_append, hat, posFrom_noNl _ _ hin]
    simp; omega
  · exact h'.inner.suffix
  · intro hne
    rw [List.map_append, mark_fst]
    have := h'.ends hne
    unfold posAfter at this ⊢
    rw [posFrom_append] at this ⊢
    exact this
  · exact h.lines

/-- Attribution of a consumed piece. -/
theorem Cut.attr {M : Marked} {pos : Nat × Nat} {x y : Str} {lines : List Str}
    (h : Cut M pos (x ++ y) lines) {ps : List Point} (ha : Attributes ps M) (o : Option Origin)
    (hl : ∀ j, j < x.length → lookup ps pos.1 (pos.2 + j) = o) : Attributes ps (M ++ mark o x) := by
  intro k c o' hk
  rcases Nat.lt_or_ge k M.length with hlt | hge
  · rw [List.getElem?_append_left hlt] at hk
    rw [List.take_append_of_le_length (Nat.le_of_lt hlt)]
    exact ha k c o' hk
  · rw [List.getElem?_append_right hge] at hk
    have hj : k - M.length < x.length := by
      rcases Nat.lt_or_ge (k - M.length) (mark o x).length with h' | h'
      · simpa [mark] using h'
      · rw [List.getElem?_eq_none h'] at hk; cases hk
    rw [take_mark hge, h.charPos hj]
    simp only
    rw [hl _ hj]
    simp only [mark, List.getElem?_map, Option.map_eq_some_iff, Prod.mk.injEq] at hk
    obtain ⟨_, _, _, rfl⟩ := hk
    rfl

/-- A further point after everything consumed. -/
theorem Cut.later {M : Marked} {pos : Nat × Nat} {next : Str} {lines : List Str}
    (h : Cut M pos next lines) {ps : List Point} (ha : Attributes ps M) {q : Point}
    (hq : (q.line, q.col) = pos) : Attributes (ps ++ [q]) M := by
  intro k c o hk
  have hlt : k < M.length := by
    rcases Nat.lt_or_ge k M.length with h' | h'
    · exact h'
    · rw [List.getElem?_eq_none h'] at hk; cases hk
  rw [lookup_snoc_later]
  · exact ha k c o hk
  · rw [hq]; exact h.before k hlt

/-! ## Children -/

/-- The marked text of children without own origin. -/
def childMarks (ch : List SmNode) : Marked := marked (SmNode.leavesList none ch)

theorem leavesList_append (o : Option Origin) : ∀ (a b : List SmNode),
    SmNode.leavesList o (a ++ b) = SmNode.leavesList o a ++ SmNode.leavesList o b
  | [], b => by simp [SmNode.leavesList]
  | .str s :: a, b => by
    rw [List.cons_append, SmNode.leavesList, SmNode.leavesList, leavesList_append o a b]; rfl
  | .node p s n cs ch :: a, b => by
    rw [List.cons_append, SmNode.leavesList, SmNode.leavesList, leavesList_append o a b]; simp

theorem childMarks_append (a b : List SmNode) : childMarks (a ++ b) = childMarks a ++ childMarks b := by
  rw [childMarks, leavesList_append, marked_append]; rfl

theorem childMarks_addStr (ch : List SmNode) (s : Str) :
    childMarks (addStrChild ch s) = childMarks ch ++ mark none s := by
  unfold addStrChild
  split
  · rename_i h
    have : s = [] := by simpa using h
    subst this; simp [mark]
  · rw [childMarks_append]
    simp [childMarks, SmNode.leavesList, marked, mark]

theorem childMarks_addMapping (ch : List SmNode) (m : Mapping) (s : Str) :
    childMarks (addMappingWithCode ch (some m) s) = childMarks ch ++ mark m.point.origin s := by
  obtain ⟨g, src, n, o⟩ := m
  unfold addMappingWithCode
  cases src with
  | none =>
    have : (⟨g, none, n, o⟩ : Mapping).point.origin = none := by cases o <;> rfl
    rw [this]
    exact childMarks_addStr ch s
  | some src =>
    simp only [Option.isSome_some, if_true]
    rw [childMarks_append]
    congr 1
    have : originOf o (some src) n = (⟨g, some src, n, o⟩ : Mapping).point.origin := by cases o <;> rfl
    unfold SmNode.mkStr addStrChild childMarks
    rw [SmNode.leavesList, SmNode.leaves, this]
    split
    · rename_i h
      have : s = [] := by simpa using h
      subst this; simp [SmNode.leavesList, marked, mark]
    · simp [SmNode.leavesList, marked, mark]

theorem leafOk_addStr {ch : List SmNode} (h : ∀ l ∈ SmNode.leavesList none ch, LeafOk l) (s : Str) :
    ∀ l ∈ SmNode.leavesList none (addStrChild ch s), LeafOk l := by
  unfold addStrChild
  split
  · exact h
  · rw [leavesList_append]
    intro l hl
    rcases List.mem_append.1 hl with hl | hl
    · exact h l hl
    · simp [SmNode.leavesList] at hl
      subst hl
      intro o ho; cases ho

theorem leafOk_addMapping {ch : List SmNode} (h : ∀ l ∈ SmNode.leavesList none ch, LeafOk l)
    {m : Mapping} (hm : m.Valid) (s : Str) :
    ∀ l ∈ SmNode.leavesList none (addMappingWithCode ch (some m) s), LeafOk l := by
  obtain ⟨g, src, n, o⟩ := m
  unfold addMappingWithCode
  cases src with
  | none => exact leafOk_addStr h s
  | some src =>
    simp only [Option.isSome_some, if_true]
    rw [leavesList_append]
    intro l hl
    rcases List.mem_append.1 hl with hl | hl
    · exact h l hl
    · unfold SmNode.mkStr addStrChild at hl
      rw [SmNode.leavesList, SmNode.leaves] at hl
      split at hl
      · simp [SmNode.leavesList] at hl
      · rename_i hs
        simp [SmNode.leavesList] at hl
        subst hl
        intro x hx
        refine ⟨fun h => hs (by simpa using h), ?_⟩
        obtain ⟨_, h2⟩ := hm
        cases o with
        | none => cases hx
        | some o => cases hx; exact h2

/-! ## The loop, text only -/

/-- The text of a state. -/
def FsState.all (st : FsState) : Str :=
  (childMarks st.children).map Prod.fst ++ st.next.text ++ (st.lines.map Prod.fst).flatten

/-- What holds for any mapping list. -/
structure FsText (code : Str) (st : FsState) : Prop where
  text : st.all = code
  sbc : SbcOk st.next.text st.next.sbc
  lines : ∀ l ∈ st.lines, SbcOk l.1 l.2
  exist : st.next.exist = false → st.next.text = [] ∧ st.lines = []

theorem popLine_spec (ls : List (Str × Bool)) (h : ∀ l ∈ ls, SbcOk l.1 l.2) :
    (popLine ls).1.text = (ls.map Prod.fst).headD [] ∧
    (popLine ls).2.map Prod.fst = (ls.map Prod.fst).tail ∧
    SbcOk (popLine ls).1.text (popLine ls).1.sbc ∧ (∀ l ∈ (popLine ls).2, SbcOk l.1 l.2) ∧
    ((popLine ls).1.exist = false → (popLine ls).1.text = [] ∧ (popLine ls).2 = []) ∧
    (popLine ls).1.text ++ ((popLine ls).2.map Prod.fst).flatten = (ls.map Prod.fst).flatten := by
  cases ls with
  | nil => exact ⟨rfl, rfl, fun _ c hc => by simp [popLine] at hc, fun l hl => by simp [popLine] at hl,
      fun _ => ⟨rfl, rfl⟩, rfl⟩
  | cons l ls =>
    refine ⟨rfl, rfl, h l (by simp), fun x hx => h x ?_, fun hh => ?_, rfl⟩
    · have : x ∈ ls := hx
      simp [this]
    · simp [popLine] at hh

theorem FsText.pop {code : Str} {st : FsState} (h : FsText code st) {ch : List SmNode}
    {o : Option Origin} (hc : childMarks ch = childMarks st.children ++ mark o st.next.text)
    (lp : Nat × Nat) (lm : Option Mapping) :
    FsText code { children := ch, lastPos := lp, lastMapping := lm, next := (popLine st.lines).1,
                  lines := (popLine st.lines).2 } := by
  obtain ⟨_, _, h3, h4, h5, h6⟩ := popLine_spec st.lines h.lines
  refine ⟨?_, h3, h4, h5⟩
  rw [← h.text]
  unfold FsState.all
  simp only [hc, List.map_append, mark_fst, List.append_assoc, h6]

theorem FsText.skip {code : Str} : ∀ (n : Nat) {st : FsState}, FsText code st →
    FsText code (skipLines n st) := by
  intro n
  induction n with
  | zero => intro st h; exact h
  | succ n ih =>
    intro st h
    rw [skipLines]
    exact ih (h.pop (childMarks_addStr _ _) _ _)

theorem FsText.split {code : Str} {st : FsState} (h : FsText code st) (pos : Int) {ch : List SmNode}
    {o : Option Origin}
    (hc : childMarks ch = childMarks st.children ++ mark o (st.next.text.take pos.toNat))
    (lp : Nat × Nat) (lm : Option Mapping) {sbc : Bool} (hs : SbcOk (st.next.text.drop pos.toNat) sbc) :
    FsText code { children := ch, lastPos := lp, lastMapping := lm,
                  next := { st.next with text := st.next.text.drop pos.toNat, sbc },
                  lines := st.lines } := by
  refine ⟨?_, hs, h.lines, fun he => ?_⟩
  · rw [← h.text]
    unfold FsState.all
    simp only [hc, List.map_append, mark_fst, List.append_assoc]
    congr 1
    rw [← List.append_assoc, List.take_append_drop]
  · obtain ⟨h1, h2⟩ := h.exist he
    exact ⟨by rw [h1]; simp, h2⟩

theorem fsTail_text {code : Str} {st : FsState} (h : FsText code st) (m : Mapping) :
    ∃ st', fsTail st m = .ok st' ∧ FsText code st' := by
  unfold fsTail
  dsimp only
  have hk := h.skip (m.generated.1 - st.lastPos.1)
  generalize skipLines (m.generated.1 - st.lastPos.1) st = st' at hk ⊢
  split
  · obtain ⟨r, h1, h2, h3, h4⟩ := splitStr_sbc hk.sbc m.generated.2
    rw [h1]
    refine ⟨_, rfl, ?_⟩
    simp only [h2, h3]
    exact hk.split _ (childMarks_addStr _ _) _ _ (by rw [← h3]; exact h4)
  · exact ⟨_, rfl, hk.text, hk.sbc, hk.lines, hk.exist⟩

theorem fsStep_text {code : Str} {st : FsState} (h : FsText code st) (m : Mapping) :
    ∃ st', fsStep st m = .ok st' ∧ FsText code st' := by
  unfold fsStep
  split
  · rename_i lm _
    split
    · exact fsTail_text (h.pop (childMarks_addMapping _ _ _) _ _) m
    · obtain ⟨r, h1, h2, h3, h4⟩ := splitStr_sbc h.sbc ((m.generated.2 : Int) - st.lastPos.2)
      rw [h1]
      refine ⟨_, rfl, ?_⟩
      have := h.split _ (childMarks_addMapping _ lm _) (st.lastPos.1, m.generated.2) (some m)
        (by rw [← h3]; exact h4)
      rw [← h2, ← h3] at this
      exact this
  · exact fsTail_text h m

theorem fsLoop_text {code : Str} : ∀ (ms : List Mapping) {st : FsState}, FsText code st →
    ∃ st', fsLoop st ms = .ok st' ∧ FsText code st' := by
  intro ms
  induction ms with
  | nil => intro st h; exact ⟨st, rfl, h⟩
  | cons m ms ih =>
    intro st h
    obtain ⟨st1, e1, h1⟩ := fsStep_text h m
    obtain ⟨st2, e2, h2⟩ := ih h1
    exact ⟨st2, by rw [fsLoop, e1]; exact e2, h2⟩

theorem fsFinish_text {code : Str} {st : FsState} (h : FsText code st) :
    (childMarks (fsFinish st)).map Prod.fst = code := by
  rw [← h.text]
  unfold fsFinish FsState.all
  split
  · split
    · simp [childMarks_addStr, childMarks_addMapping, mark_fst]
    · simp [childMarks_addStr, mark_fst]
  · rename_i he
    obtain ⟨h1, h2⟩ := h.exist (by simpa using he)
    rw [h1, h2]; simp

theorem fsInit_text (code : Str) (lm : Option Mapping) :
    FsText code { children := [], lastPos := (1, 0), lastMapping := lm,
                  next := (popLine (codeLines code)).1, lines := (popLine (codeLines code)).2 } := by
  obtain ⟨h1, _, h3, _⟩ := codeLines_spec code
  obtain ⟨_, _, k3, k4, k5, k6⟩ := popLine_spec _ h3
  refine ⟨?_, k3, k4, k5⟩
  unfold FsState.all
  simp only [List.append_assoc, k6, h1]
  simp [childMarks, SmNode.leavesList, marked]

theorem marked_text (ls : List (Str × Option Origin)) :
    (marked ls).map Prod.fst = (ls.map Prod.fst).flatten := by
  induction ls with
  | nil => rfl
  | cons l ls ih =>
    unfold marked at ih ⊢
    simp [List.flatMap_cons, ih, Function.comp_def]

theorem SmNode.marks_text (n : SmNode) : n.marks.map Prod.fst = n.text := marked_text _

theorem fromString_text (code : Str) (g : Generator) :
    ∃ n, fromStringWithGenerator code g = .ok n ∧ n.text = code := by
  obtain ⟨st, e, h⟩ := fsLoop_text g.mappings.list (fsInit_text code none)
  refine ⟨_, by unfold fromStringWithGenerator; dsimp only; rw [e], ?_⟩
  rw [← SmNode.marks_text]
  exact fsFinish_text h

end WS
