import Verif.Spec.Pieces
import Verif.Spec.Generator
import Verif.Model.Slm
import Verif.Proofs.Serialize
/-! # Rendering a list map -/

namespace WS
open Spec

/-! ## Counting lines -/

theorem unfinished_nil : unfinishedLines [] = 0 := rfl

theorem takeWhile_all {p : Char → Bool} {s : Str} (h : ∀ c ∈ s, p c = true) : s.takeWhile p = s := by
  induction s with
  | nil => rfl
  | cons a s ih => rw [List.takeWhile_cons, if_pos (h a (by simp)), ih (fun c hc => h c (by simp [hc]))]

theorem unfinished_of_not_mem {s : Str} (h : '\n' ∉ s) : unfinishedLines s = blen s := by
  unfold unfinishedLines
  rw [takeWhile_all]
  · unfold blen
    rw [List.map_reverse, List.sum_reverse]
  · intro c hc
    rw [List.mem_reverse] at hc
    simp only [bne_iff_ne, ne_eq]
    rintro rfl
    exact h hc

theorem takeWhile_stop {p : Char → Bool} {s : Str} (h : ∃ c ∈ s, p c = false) (t : Str) :
    (s ++ t).takeWhile p = s.takeWhile p := by
  induction s with
  | nil => obtain ⟨c, hc, _⟩ := h; cases hc
  | cons a s ih =>
    rw [List.cons_append, List.takeWhile_cons, List.takeWhile_cons]
    by_cases ha : p a = true
    · rw [if_pos ha, if_pos ha, ih]
      obtain ⟨c, hc, hp⟩ := h
      rcases List.mem_cons.1 hc with rfl | hc
      · rw [ha] at hp; cases hp
      · exact ⟨c, hc, hp⟩
    · rw [if_neg ha, if_neg ha]

/-- Only what follows the last newline counts. -/
theorem unfinished_append {s t : Str} (h : '\n' ∈ t) : unfinishedLines (s ++ t) = unfinishedLines t := by
  unfold unfinishedLines
  rw [List.reverse_append, takeWhile_stop]
  exact ⟨'\n', by simpa using h, by simp⟩

theorem unfinished_after_nl (s t : Str) (h : '\n' ∉ t) : unfinishedLines (s ++ '\n' :: t) = blen t := by
  unfold unfinishedLines
  rw [List.reverse_append, List.reverse_cons, List.append_assoc]
  have ht : ∀ c ∈ t.reverse, (c != '\n') = true := by
    intro c hc
    rw [List.mem_reverse] at hc
    simp only [bne_iff_ne, ne_eq]
    rintro rfl
    exact h hc
  rw [List.takeWhile_append_of_pos ht]
  simp only [List.cons_append, List.nil_append, List.takeWhile_cons, bne_self_eq_false,
    Bool.false_eq_true, if_false, List.append_nil]
  unfold blen
  rw [List.map_reverse, List.sum_reverse]

theorem numberOfLines_zero {s : Str} : numberOfLines s = 0 ↔ '\n' ∉ s := by
  unfold numberOfLines
  exact List.count_eq_zero

theorem numberOfLines_append (s t : Str) : numberOfLines (s ++ t) = numberOfLines s + numberOfLines t := by
  unfold numberOfLines; exact List.count_append

theorem numberOfLines_cons_nl (t : Str) : numberOfLines ('\n' :: t) = numberOfLines t + 1 := by
  unfold numberOfLines; simp

theorem numberOfLines_cons_other {c : Char} (h : c ≠ '\n') (t : Str) :
    numberOfLines (c :: t) = numberOfLines t := by
  unfold numberOfLines; exact List.count_cons_of_ne h

theorem blen_pos {s : Str} (h : s ≠ []) : 0 < blen s := by
  have := mt blen_eq_zero.1 h
  omega

theorem unfinished_cons_nl (t : Str) : unfinishedLines ('\n' :: t) = unfinishedLines t := by
  by_cases h : '\n' ∈ t
  · exact unfinished_append (s := ['\n']) h
  · rw [unfinished_of_not_mem h]
    exact unfinished_after_nl [] t h

/-- Nothing is unfinished exactly if the text is empty or ends with a newline. -/
theorem unfinished_zero {s : Str} : unfinishedLines s = 0 ↔ s = [] ∨ s.getLast? = some '\n' := by
  by_cases hs : s = []
  · simp [hs, unfinished_nil]
  · obtain ⟨t, c, rfl⟩ : ∃ t c, s = t ++ [c] := ⟨_, _, (List.dropLast_concat_getLast hs).symm⟩
    simp only [List.append_eq_nil_iff, List.cons_ne_nil, and_false, false_or, List.getLast?_append,
      List.getLast?_singleton, Option.some_or, Option.some.injEq]
    by_cases hc : c = '\n'
    · subst hc
      simp only [iff_true]
      exact unfinished_after_nl t [] (by simp)
    · simp only [hc, iff_false]
      unfold unfinishedLines
      rw [List.reverse_append]
      simp only [List.reverse_cons, List.reverse_nil, List.nil_append, List.cons_append]
      rw [List.takeWhile_cons, if_pos (by simpa using hc), blen_cons]
      have := Char.utf8Size_pos c
      omega

theorem posFromB_append (p : Nat × Nat) (s t : Str) : posFromB p (s ++ t) = posFromB (posFromB p s) t := by
  unfold posFromB; rw [List.foldl_append]

/-- The byte position after a text. -/
theorem posFromB_eq (s : Str) : ∀ p : Nat × Nat, posFromB p s =
    (p.1 + numberOfLines s, if '\n' ∈ s then unfinishedLines s else p.2 + blen s) := by
  induction s with
  | nil => intro p; simp [posFromB, numberOfLines, blen_nil]
  | cons c s ih =>
    intro p
    show posFromB (advanceB p c) s = _
    rw [ih]
    by_cases hc : c = '\n'
    · subst hc
      rw [advanceB, if_pos rfl, numberOfLines_cons_nl, unfinished_cons_nl]
      simp only [List.mem_cons, true_or, if_true]
      refine Prod.ext (by simp; omega) ?_
      by_cases h : '\n' ∈ s
      · simp [h]
      · simp [h, unfinished_of_not_mem h]
    · rw [advanceB, if_neg hc, numberOfLines_cons_other hc]
      refine Prod.ext rfl ?_
      simp only [List.mem_cons, Ne.symm hc, false_or]
      by_cases h : '\n' ∈ s
      · simp only [h, if_true]
        exact (unfinished_append (s := [c]) h).symm
      · simp only [h, if_false, blen_cons]; omega

/-- How many segments follow the first one of a mapped text. -/
def furtherCount (s : Str) : Nat :=
  if unfinishedLines s = 0 then numberOfLines s - 1 else numberOfLines s

/-- That many points. -/
def repeatPoints (src : Int) (step : Nat) : Nat → Nat → Nat → List Point
  | 0, _, _ => []
  | k + 1, l, n => ⟨l + 1, 0, some ⟨src, n + step, 0, none⟩⟩ :: repeatPoints src step k (l + 1) (n + step)

theorem furtherLines_eq (src : Int) (step : Nat) : ∀ (s : Str) (l n : Nat),
    furtherLines src step l n s = repeatPoints src step (furtherCount s) l n
  | [], l, n => by simp [furtherLines, furtherCount, numberOfLines, repeatPoints]
  | c :: s, l, n => by
    have ih := furtherLines_eq src step s
    rw [furtherLines]
    by_cases hc : c = '\n'
    · subst hc
      rw [if_pos rfl]
      by_cases hs : s = []
      · subst hs
        simp [furtherCount, unfinished_cons_nl, unfinished_nil, numberOfLines, repeatPoints]
      · rw [if_neg hs, ih]
        have : furtherCount ('\n' :: s) = furtherCount s + 1 := by
          unfold furtherCount
          rw [unfinished_cons_nl, numberOfLines_cons_nl]
          split
          · rename_i hu
            have : numberOfLines s ≠ 0 := by
              intro h0
              have := unfinished_of_not_mem (numberOfLines_zero.1 h0)
              have := blen_pos hs
              omega
            omega
          · rfl
        rw [this, repeatPoints]
    · rw [if_neg hc, ih]
      congr 1
      unfold furtherCount
      rw [numberOfLines_cons_other hc]
      by_cases h : '\n' ∈ s
      · rw [← unfinished_append (s := [c]) h]; rfl
      · have := numberOfLines_zero.2 h
        simp [this]

/-! ## Reading the strings written -/

/-- The segment written for a further line. -/
def stepSeg (step : Nat) : Str := ';' :: (['A'] ++ ['A'] ++ vlqEncode step ++ ['A'])

theorem nextLineSeg_eq : nextLineSeg = stepSeg 1 := by decide +kernel
theorem sameLineSeg_eq : sameLineSeg = stepSeg 0 := by decide +kernel

theorem vlqEncode_zero : vlqEncode 0 = ['A'] := by decide +kernel

theorem pointsMid_line {ss ns : List Int} (l : Nat) (a : Acc) (s : Str) :
    pointsMid ss ns l a (';' :: s) = pointsMid ss ns (l + 1) { a with col := 0 } s := by
  rw [pointsMid, decodeMid_line]; rfl

/-- The reader's numbers at a place of a rendered list map. -/
def lineAcc (col source : Nat) (line : Nat) : Acc := { col := col, source := source, line := line }

theorem readSeg_four (l : Nat) (a : Acc) (g s o c : Int) :
    readSeg l a (vlqEncode g ++ (vlqEncode s ++ (vlqEncode o ++ vlqEncode c))) =
      some ([⟨l, a.col + g, some (a.source + s, a.line + o, a.origCol + c, none)⟩],
        { a with col := a.col + g, source := a.source + s, line := a.line + o,
                 origCol := a.origCol + c }) := by
  have hf := fields_encode g _ _ (fields_encode s _ _ (fields_encode o _ _ (vlqEncode_fields c)))
  rw [readSeg, hf]

theorem four_sep (g s o c : Int) :
    ',' ∉ vlqEncode g ++ (vlqEncode s ++ (vlqEncode o ++ vlqEncode c)) ∧
    ';' ∉ vlqEncode g ++ (vlqEncode s ++ (vlqEncode o ++ vlqEncode c)) :=
  sep_of_fields (fields_encode g _ _ (fields_encode s _ _ (fields_encode o _ _ (vlqEncode_fields c))))

/-- A segment with source `i`, original line `n` (from 1), column `col`. -/
theorem pointsMid_four {ss : List Int} {src : Int} {i i' : Nat} (hi : ss[i']? = some src)
    (l col d n n' : Nat) (s : Str) (hs : AtSep s) (hn : 1 ≤ n') :
    pointsMid ss [] l (lineAcc col i n)
      (vlqEncode (d : Int) ++ (vlqEncode ((i' : Int) - i) ++ (vlqEncode ((n' : Int) - 1 - n) ++ vlqEncode 0)) ++ s) =
      (pointsMid ss [] l (lineAcc (col + d) i' (n' - 1)) s).map
        (⟨l, col + d, some ⟨src, n', 0, none⟩⟩ :: ·) := by
  have e1 : (i : Int) + ((i' : Int) - i) = i' := by omega
  have e2 : (n : Int) + ((n' : Int) - 1 - n) = ((n' - 1 : Nat) : Int) := by omega
  have e3 : (col : Int) + d = ((col + d : Nat) : Int) := by omega
  have e4 : n' - 1 + 1 = n' := by omega
  have hr := readSeg_four l (lineAcc col i n) d ((i' : Int) - i) ((n' : Int) - 1 - n) 0
  refine pointsMid_seg (four_sep _ _ _ _) (y := ⟨l, (col + d : Nat), some (i', (n' - 1 : Nat), 0, none)⟩)
    (b := lineAcc (col + d) i' (n' - 1)) ?_ ?_ s hs
  · rw [hr]
    simp only [lineAcc, e1, e2, e3]
    rfl
  · have h0 : nat? 0 = some 0 := rfl
    simp only [Seg.resolve, nat?_nat, at?_nat, hi, h0, e4]

theorem pointsMid_steps {ss : List Int} {src : Int} {i : Nat} (hi : ss[i]? = some src) (step : Nat) :
    ∀ (k l col n : Nat) (s : Str), AtSep s →
    pointsMid ss [] l (lineAcc col i n) ((List.replicate k (stepSeg step)).flatten ++ s) =
      (pointsMid ss [] (l + k) (lineAcc (if k = 0 then col else 0) i (n + k * step)) s).map
        (repeatPoints src step k l (n + 1) ++ ·)
  | 0, l, col, n, s, hs => by
    simp [repeatPoints]
  | k + 1, l, col, n, s, hs => by
    have e : (List.replicate (k + 1) (stepSeg step)).flatten ++ s =
        ';' :: (vlqEncode ((0 : Nat) : Int) ++ (vlqEncode ((i : Int) - i) ++
          (vlqEncode (((n + step + 1 : Nat) : Int) - 1 - n) ++ vlqEncode 0)) ++
          ((List.replicate k (stepSeg step)).flatten ++ s)) := by
      have e1 : (i : Int) - i = 0 := by omega
      have e2 : ((n + step + 1 : Nat) : Int) - 1 - n = step := by omega
      rw [e1, e2]
      simp [List.replicate_succ, stepSeg, vlqEncode_zero]
    have hs' : AtSep ((List.replicate k (stepSeg step)).flatten ++ s) := by
      cases k with
      | zero => simpa using hs
      | succ k => simp [List.replicate_succ, stepSeg, AtSep]
    rw [e, pointsMid_line]
    have e0 : ({ lineAcc col i n with col := 0 } : Acc) = lineAcc 0 i n := rfl
    rw [e0, pointsMid_four hi (l + 1) 0 0 n (n + step + 1) _ hs' (by omega)]
    have e5 : n + step + 1 - 1 = n + step := by omega
    rw [e5, pointsMid_steps hi step k (l + 1) _ (n + step) s hs]
    rw [Option.map_map]
    have e6 : l + 1 + k = l + (k + 1) := by omega
    have e7 : n + step + k * step = n + (k + 1) * step := by rw [Nat.add_mul]; omega
    rw [e6, e7]
    have e8 : (if k = 0 then 0 + 0 else 0) = if k + 1 = 0 then col else 0 := by simp
    rw [e8]
    congr 1
    funext x
    have e9 : n + 1 + step = n + step + 1 := by omega
    simp [repeatPoints, e9]

/-! ## What the nodes write -/

/-- `get_mappings` of both kinds of mapped nodes. -/
def mappedOut (c : MapCtx) (code : Str) (source original : Option Int) (line step : Nat) : Str × MapCtx :=
  if code = [] then ([], c)
  else
    let r := c.ensureSource source original
    (headSeg r.2 r.1 line ++ ((List.replicate (furtherCount code) (stepSeg step)).flatten ++
        (if unfinishedLines code = 0 then [';'] else [])),
     { r.2 with source := r.1, unfinished := unfinishedLines code,
                origLine := line + furtherCount code * step })

theorem replicate_tail (seg : Str) (code : Str) :
    (List.replicate (numberOfLines code - 1) seg).flatten ++
      (if unfinishedLines code = 0 then [';'] else if numberOfLines code ≠ 0 then seg else []) =
    (List.replicate (furtherCount code) seg).flatten ++
      (if unfinishedLines code = 0 then [';'] else []) := by
  unfold furtherCount
  by_cases hu : unfinishedLines code = 0
  · simp [hu]
  · simp only [hu, if_false, List.append_nil]
    by_cases hn : numberOfLines code = 0
    · simp [hn]
    · rw [if_pos hn]
      obtain ⟨k, hk⟩ := Nat.exists_eq_succ_of_ne_zero hn
      rw [hk, Nat.succ_sub_one, Nat.succ_eq_add_one, List.replicate_succ', List.flatten_append]
      simp

theorem numberOfLines_pos_of_finished {s : Str} (hs : s ≠ []) (hu : unfinishedLines s = 0) :
    1 ≤ numberOfLines s := by
  rcases Nat.eq_zero_or_pos (numberOfLines s) with h | h
  · have := unfinished_of_not_mem (numberOfLines_zero.1 h)
    have := blen_pos hs
    omega
  · exact h

theorem LSource.mappings_eq {n : LSource} (h : n.numLines = numberOfLines n.code) (c : MapCtx) :
    n.mappings c = mappedOut c n.code n.source n.original n.startLine 1 := by
  unfold LSource.mappings mappedOut
  by_cases he : n.code = []
  · simp [he]
  · have he' : n.code.isEmpty = false := by simpa using he
    rw [he', if_neg he]
    simp only [Bool.false_eq_true, if_false]
    rw [h, List.append_assoc, replicate_tail, nextLineSeg_eq]
    refine Prod.ext rfl ?_
    simp only [Nat.mul_one]
    congr 1
    unfold furtherCount
    have := numberOfLines_pos_of_finished he
    split
    · rename_i hu; have := this hu; omega
    · rfl

theorem LSingle.mappings_eq {n : LSingle} (h : n.numLines = numberOfLines n.code) (c : MapCtx) :
    n.mappings c = mappedOut c n.code n.source n.original n.line 0 := by
  unfold LSingle.mappings mappedOut
  by_cases he : n.code = []
  · simp [he]
  · have he' : n.code.isEmpty = false := by simpa using he
    rw [he', if_neg he]
    simp only [Bool.false_eq_true, if_false]
    rw [h, List.append_assoc, replicate_tail, sameLineSeg_eq]
    rfl

/-- The index kept in the source table is the place of the entry. -/
def MapCtx.Table (c : MapCtx) : Prop :=
  ∀ (k : Nat) (p : Option Int × Nat × Option Int), c.sources[k]? = some p → p.2.1 = k

theorem lookup_getElem? {α β} [BEq α] [LawfulBEq α] {l : List (α × β)} {a : α} {b : β}
    (h : l.lookup a = some b) : ∃ k : Nat, l[k]? = some (a, b) := by
  induction l with
  | nil => cases h
  | cons x l ih =>
    rw [List.lookup_cons] at h
    by_cases hx : (a == x.1) = true
    · rw [hx] at h
      simp only [Option.some.injEq] at h
      refine ⟨0, ?_⟩
      rw [beq_iff_eq] at hx
      simp [hx, ← h]
    · simp only [hx] at h
      obtain ⟨k, hk⟩ := ih h
      exact ⟨k + 1, by simpa using hk⟩

theorem ensureSource_spec {c : MapCtx} (hc : c.Table) (s o : Option Int) :
    (c.ensureSource s o).2.Table ∧ (∃ x, (c.ensureSource s o).2.sources = c.sources ++ x) ∧
    (∃ p, (c.ensureSource s o).2.sources[(c.ensureSource s o).1]? = some (s, p)) ∧
    (c.ensureSource s o).2.source = c.source ∧ (c.ensureSource s o).2.origLine = c.origLine ∧
    (c.ensureSource s o).2.unfinished = c.unfinished := by
  unfold MapCtx.ensureSource
  split
  · rename_i i o' h
    obtain ⟨k, hk⟩ := lookup_getElem? h
    have := hc k _ hk
    simp only at this
    subst this
    exact ⟨hc, ⟨[], by simp⟩, ⟨_, hk⟩, rfl, rfl, rfl⟩
  · refine ⟨?_, ⟨_, rfl⟩, ⟨(c.sources.length, o), by simp⟩, rfl, rfl, rfl⟩
    intro k p hk
    simp only at hk
    rw [List.getElem?_append] at hk
    split at hk
    · exact hc k p hk
    · rename_i hlt
      rw [List.getElem?_singleton] at hk
      split at hk
      · simp only [Option.some.injEq] at hk
        rw [← hk]
        simp only
        omega
      · cases hk

/-- What a child says about its counters is true, mapped code starts at a line numbered from 1, and it
is not a bare string. -/
def LNode.Ok : LNode → Prop
  | .str _ => False
  | .source n => n.numLines = numberOfLines n.code ∧ (n.code ≠ [] → 1 ≤ n.startLine)
  | .single n => n.numLines = numberOfLines n.code ∧ (n.code ≠ [] → 1 ≤ n.line)
  | _ => True

/-- A child as a piece of the generated text. -/
def LNode.piece : LNode → Piece
  | .code s => .plain s
  | .source n => .lines n.code (n.source.getD (-1)) n.startLine
  | .single n => .single n.code (n.source.getD (-1)) n.line
  | .str s => .plain s
  | .map _ => .plain []
  | .idx _ => .plain []

theorem LNode.piece_text (n : LNode) : n.piece.text = n.text := by cases n <;> rfl

theorem mappedOut_table {c : MapCtx} (hc : c.Table) (hl : 1 ≤ c.origLine) (code : Str)
    (s o : Option Int) (line step : Nat) (hline : code ≠ [] → 1 ≤ line) :
    (mappedOut c code s o line step).2.Table ∧ 1 ≤ (mappedOut c code s o line step).2.origLine ∧
    ∃ x, (mappedOut c code s o line step).2.sources = c.sources ++ x := by
  unfold mappedOut
  by_cases he : code = []
  · rw [if_pos he]; exact ⟨hc, hl, [], by simp⟩
  · rw [if_neg he]
    obtain ⟨h1, h2, _⟩ := ensureSource_spec hc s o
    refine ⟨h1, ?_, h2⟩
    have := hline he
    simp only
    omega

theorem node_table {c : MapCtx} (hc : c.Table) (hl : 1 ≤ c.origLine) {n : LNode} (hn : n.Ok) :
    (n.mappings c).2.Table ∧ 1 ≤ (n.mappings c).2.origLine ∧
    ∃ x, (n.mappings c).2.sources = c.sources ++ x := by
  cases n with
  | str s => exact hn.elim
  | code s =>
    simp only [LNode.mappings, codeMappings]
    split <;> exact ⟨hc, hl, [], by simp⟩
  | source n =>
    simp only [LNode.mappings]
    rw [LSource.mappings_eq hn.1]
    exact mappedOut_table hc hl _ _ _ _ _ hn.2
  | single n =>
    simp only [LNode.mappings]
    rw [LSingle.mappings_eq hn.1]
    exact mappedOut_table hc hl _ _ _ _ _ hn.2
  | map ch => exact ⟨hc, hl, [], by simp [LNode.mappings]⟩
  | idx i => exact ⟨hc, hl, [], by simp [LNode.mappings]⟩

theorem slm_table : ∀ {m : Slm} {c : MapCtx}, c.Table → 1 ≤ c.origLine → (∀ n ∈ m, n.Ok) →
    (slmMappings c m).2.Table ∧ ∃ x, (slmMappings c m).2.sources = c.sources ++ x
  | [], c, hc, hl, _ => ⟨hc, [], by simp [slmMappings]⟩
  | n :: m, c, hc, hl, hm => by
    obtain ⟨h1, h2, x, hx⟩ := node_table hc hl (hm n (by simp))
    obtain ⟨h3, y, hy⟩ := slm_table (m := m) h1 h2 (fun k hk => hm k (by simp [hk]))
    refine ⟨h3, x ++ y, ?_⟩
    simp only [slmMappings]
    rw [hy, hx, List.append_assoc]

/-- After unfinished code the next node starts with a separator. -/
theorem slm_atSep : ∀ {m : Slm} {c : MapCtx}, c.Table → (∀ n ∈ m, n.Ok) → c.unfinished ≠ 0 →
    AtSep (slmMappings c m).1
  | [], c, _, _, _ => trivial
  | n :: m, c, hc, hm, hu => by
    have mapped : ∀ code s o line step (c' : MapCtx), c'.Table → c'.unfinished ≠ 0 → code ≠ [] → ∀ t,
        AtSep ((mappedOut c' code s o line step).1 ++ t) := by
      intro code s o line step c' hc' hu' he t
      unfold mappedOut
      rw [if_neg he]
      simp only [headSeg]
      rw [(ensureSource_spec hc' s o).2.2.2.2.2, if_pos hu']
      simp [AtSep]
    have hm' : ∀ k ∈ m, k.Ok := fun k hk => hm k (by simp [hk])
    have hn := hm n (by simp)
    simp only [slmMappings]
    cases n with
    | str s => exact hn.elim
    | code s =>
      simp only [LNode.mappings, codeMappings]
      by_cases h : numberOfLines s > 0
      · rw [if_pos h]
        obtain ⟨k, hk⟩ := Nat.exists_eq_succ_of_ne_zero (Nat.pos_iff_ne_zero.1 h)
        simp [hk, List.replicate_succ, AtSep]
      · rw [if_neg h]
        simp only [hu, false_and, if_false, List.nil_append]
        exact slm_atSep (m := m) (c := { c with unfinished := c.unfinished + unfinishedLines s })
          hc hm' (by simp only; omega)
    | source n =>
      simp only [LNode.mappings]
      rw [LSource.mappings_eq hn.1]
      by_cases he : n.code = []
      · unfold mappedOut
        rw [if_pos he]
        exact slm_atSep hc hm' hu
      · exact mapped _ _ _ _ _ _ hc hu he _
    | single n =>
      simp only [LNode.mappings]
      rw [LSingle.mappings_eq hn.1]
      by_cases he : n.code = []
      · unfold mappedOut
        rw [if_pos he]
        exact slm_atSep hc hm' hu
      · exact mapped _ _ _ _ _ _ hc hu he _
    | map ch => exact slm_atSep (m := m) hc hm' hu
    | idx i => exact slm_atSep (m := m) hc hm' hu

/-- Reading a lone `A`. -/
theorem pointsMid_A {ss : List Int} (l col i n : Nat) (s : Str) (hs : AtSep s) :
    pointsMid ss [] l (lineAcc col i n) ('A' :: s) =
      (pointsMid ss [] l (lineAcc col i n) s).map (⟨l, col, none⟩ :: ·) := by
  have hf : fields ['A'] = some [0] := by decide +kernel
  refine pointsMid_seg (x := ['A']) (by decide) (y := ⟨l, (col : Int) + 0, none⟩)
    (b := lineAcc col i n) ?_ ?_ s hs
  · rw [readSeg, hf]; simp [lineAcc]
  · simp only [Seg.resolve, Int.add_zero, nat?_nat]

/-- Reading a mapped node. -/
theorem mapped_read {ss : List Int} {c : MapCtx} (hc : c.Table) (hl : 1 ≤ c.origLine)
    {code : Str} (he : code ≠ []) {s o : Option Int} {line step : Nat} (hline : 1 ≤ line)
    (hss : ∀ (k : Nat) (p : Option Int × Nat × Option Int), (mappedOut c code s o line step).2.sources[k]? = some p → ss[k]? = some (p.1.getD (-1)))
    {l col : Nat} (hcol : c.unfinished = 0 → col = 0) (t : Str)
    (ht : (mappedOut c code s o line step).2.unfinished ≠ 0 → AtSep t) :
    ∃ col', ((mappedOut c code s o line step).2.unfinished = 0 → col' = 0) ∧
      posFromB (l, col + c.unfinished) code =
        (l + numberOfLines code, col' + (mappedOut c code s o line step).2.unfinished) ∧
      pointsMid ss [] l (lineAcc col c.source (c.origLine - 1))
          ((mappedOut c code s o line step).1 ++ t) =
        (pointsMid ss [] (l + numberOfLines code)
          (lineAcc col' (mappedOut c code s o line step).2.source
            ((mappedOut c code s o line step).2.origLine - 1)) t).map
        (mappedLines (s.getD (-1)) step line (l, col + c.unfinished) code ++ ·) := by
  obtain ⟨h1, h2, ⟨p, h3⟩, h4, h5, h6⟩ := ensureSource_spec hc s o
  unfold mappedOut at hss ht ⊢
  rw [if_neg he] at hss ht ⊢
  simp only at hss ht ⊢
  generalize c.ensureSource s o = r at *
  have hi := hss r.1 _ h3
  simp only at hi
  have hhead : ∀ t', AtSep t' → pointsMid ss [] l (lineAcc col c.source (c.origLine - 1))
      (headSeg r.2 r.1 line ++ t') =
      (pointsMid ss [] l (lineAcc (col + c.unfinished) r.1 (line - 1)) t').map
        (⟨l, col + c.unfinished, some ⟨s.getD (-1), line, 0, none⟩⟩ :: ·) := by
    intro t' ht'
    have hfour := pointsMid_four (i := c.source) hi l col c.unfinished (c.origLine - 1) line t' ht' hline
    have e : ((line : Int) - 1 - ((c.origLine - 1 : Nat) : Int)) = (line : Int) - c.origLine := by omega
    rw [e] at hfour
    unfold headSeg
    rw [h4, h5, h6]
    by_cases hu : c.unfinished = 0
    · rw [hu] at hfour ⊢
      rw [if_neg (by simp)]
      rw [← hfour]
      have e0 : vlqEncode ((0 : Nat) : Int) = ['A'] := vlqEncode_zero
      rw [e0, vlqEncode_zero]
      simp
    · rw [if_pos hu, ← hfour, vlqEncode_zero]
      simp only [List.cons_append, List.append_assoc]
      rw [pointsMid_comma]
  have hK : 1 ≤ line + furtherCount code * step := by omega
  have hposn := posFromB_eq code (l, col + c.unfinished)
  have hmem : '\n' ∈ code ↔ numberOfLines code ≠ 0 := by
    rw [ne_eq, numberOfLines_zero]; simp
  have hstart : ∀ t', AtSep ((List.replicate (furtherCount code) (stepSeg step)).flatten ++ t') ∨ furtherCount code = 0 := by
    intro t'
    cases furtherCount code with
    | zero => exact .inr rfl
    | succ k => left; simp [List.replicate_succ, stepSeg, AtSep]
  have hmapped : mappedLines (s.getD (-1)) step line (l, col + c.unfinished) code =
      ⟨l, col + c.unfinished, some ⟨s.getD (-1), line, 0, none⟩⟩ ::
        repeatPoints (s.getD (-1)) step (furtherCount code) l line := by
    rw [mappedLines, if_neg he, furtherLines_eq]
  have hline' : line - 1 + 1 = line := by omega
  by_cases hu : unfinishedLines code = 0
  · have hn := numberOfLines_pos_of_finished he hu
    refine ⟨0, fun _ => rfl, ?_, ?_⟩
    · rw [hposn, if_pos (hmem.2 (by omega))]; simp
    · rw [if_pos hu]
      have e : headSeg r.2 r.1 line ++ ((List.replicate (furtherCount code) (stepSeg step)).flatten ++ [';']) ++ t
          = headSeg r.2 r.1 line ++ ((List.replicate (furtherCount code) (stepSeg step)).flatten ++ (';' :: t)) := by
        simp
      rw [e, hhead]
      · rw [pointsMid_steps hi step _ l _ (line - 1) (';' :: t) (.inr rfl), pointsMid_line, Option.map_map, hline']
        have e1 : l + furtherCount code + 1 = l + numberOfLines code := by
          unfold furtherCount; rw [if_pos hu]; omega
        have e2 : line - 1 + furtherCount code * step = line + furtherCount code * step - 1 := by omega
        rw [e1, e2, hmapped]
        rfl
      · rcases hstart (';' :: t) with h | h
        · exact h
        · rw [h]; exact .inr rfl
  · have hat := ht hu
    have hfc : furtherCount code = numberOfLines code := by unfold furtherCount; rw [if_neg hu]
    refine ⟨if furtherCount code = 0 then col + c.unfinished else 0, fun h => absurd h hu, ?_, ?_⟩
    · rw [hposn, hfc]
      by_cases hn : numberOfLines code = 0
      · rw [if_neg (by rw [hmem]; simp [hn]), if_pos hn, unfinished_of_not_mem (numberOfLines_zero.1 hn)]
      · rw [if_pos (hmem.2 hn), if_neg hn, Nat.zero_add]
    · rw [if_neg hu, List.append_nil, List.append_assoc, hhead]
      · rw [pointsMid_steps hi step _ l _ (line - 1) t hat, Option.map_map, hline', hmapped]
        have e2 : line - 1 + furtherCount code * step = line + furtherCount code * step - 1 := by omega
        rw [e2, hfc]
        rfl
      · rcases hstart t with h | h
        · exact h
        · rw [h]; simpa using hat

/-- The string written for a list map, read back. -/
theorem slm_points {ss : List Int} : ∀ (m : Slm) (c : MapCtx) (l col : Nat), c.Table → 1 ≤ c.origLine →
    (∀ n ∈ m, n.Ok) → (c.unfinished = 0 → col = 0) →
    (∀ (k : Nat) (p : Option Int × Nat × Option Int), (slmMappings c m).2.sources[k]? = some p → ss[k]? = some (p.1.getD (-1))) →
    pointsMid ss [] l (lineAcc col c.source (c.origLine - 1)) (slmMappings c m).1 =
      some (piecesPoints (l, col + c.unfinished) (m.map LNode.piece))
  | [], c, l, col, _, _, _, _, _ => by simp [slmMappings, pointsMid_nil, piecesPoints]
  | n :: m, c, l, col, hc, hl, hm, hcol, hss => by
    have hm' : ∀ k ∈ m, k.Ok := fun k hk => hm k (by simp [hk])
    have hn := hm n (by simp)
    obtain ⟨t1, t2, t3, t4⟩ := node_table hc hl hn
    have ih := slm_points (ss := ss) m (n.mappings c).2
    have hsep := slm_atSep (m := m) (c := (n.mappings c).2) t1 hm'
    have hss' : ∀ (k : Nat) (p : Option Int × Nat × Option Int), (n.mappings c).2.sources[k]? = some p → ss[k]? = some (p.1.getD (-1)) := by
      intro k p hk
      refine hss k p ?_
      obtain ⟨_, x, hx⟩ := slm_table (m := m) t1 t2 hm'
      simp only [slmMappings]
      rw [hx]
      rw [List.getElem?_append_left]
      · exact hk
      · exact (List.getElem?_eq_some_iff.1 hk).1
    have hih : ∀ l' col', ((n.mappings c).2.unfinished = 0 → col' = 0) →
        pointsMid ss [] l' (lineAcc col' (n.mappings c).2.source ((n.mappings c).2.origLine - 1))
          (slmMappings (n.mappings c).2 m).1 =
        some (piecesPoints (l', col' + (n.mappings c).2.unfinished) (m.map LNode.piece)) :=
      fun l' col' h => ih l' col' t1 t2 hm' h (by simpa only [slmMappings] using hss)
    simp only [slmMappings, List.map_cons, piecesPoints, LNode.piece_text]
    have mapped : ∀ code s o line step, n.mappings c = mappedOut c code s o line step →
        (code ≠ [] → 1 ≤ line) → n.text = code →
        n.piece.points (l, col + c.unfinished) =
          mappedLines (s.getD (-1)) step line (l, col + c.unfinished) code →
        pointsMid ss [] l (lineAcc col c.source (c.origLine - 1))
          ((n.mappings c).1 ++ (slmMappings (n.mappings c).2 m).1) =
        some (n.piece.points (l, col + c.unfinished) ++
          piecesPoints (posFromB (l, col + c.unfinished) n.text) (m.map LNode.piece)) := by
      intro code s o line step heq hline htext hpts
      rw [hpts, htext]
      by_cases he : code = []
      · have hnm : n.mappings c = ([], c) := by rw [heq, mappedOut, if_pos he]
        rw [hnm] at hih ⊢
        rw [he, mappedLines, if_pos rfl]
        exact hih l col hcol
      · rw [heq] at hih hss' hsep ⊢
        obtain ⟨col', g1, g2, g3⟩ := mapped_read hc hl he (hline he) hss' hcol _ hsep (l := l)
        rw [g3, hih _ _ g1, g2]
        rfl
    cases n with
    | str s => exact hn.elim
    | code s =>
      simp only [LNode.piece, Piece.points, LNode.text]
      have hposn := posFromB_eq s (l, col + c.unfinished)
      simp only [LNode.mappings, codeMappings] at hih hsep ⊢
      have hlast : (s ≠ [] ∧ s.getLast? ≠ some '\n') ↔ unfinishedLines s ≠ 0 := by
        rw [ne_eq (unfinishedLines s), unfinished_zero]; simp
      by_cases h : numberOfLines s > 0
      · rw [if_pos h] at hih hsep ⊢
        simp only at hih hsep ⊢
        have hmem : '\n' ∈ s := by
          apply Classical.byContradiction
          intro hno
          have := numberOfLines_zero.2 hno
          omega
        rw [List.append_assoc, pointsMid_lines, if_neg (by omega)]
        have e0 : ({ lineAcc col c.source (c.origLine - 1) with col := 0 } : Acc) =
            lineAcc 0 c.source (c.origLine - 1) := rfl
        rw [e0]
        have hih' := hih (l + numberOfLines s) 0 (fun _ => rfl)
        rw [hposn, if_pos hmem]
        unfold plainLines
        rw [hposn, if_pos hmem]
        by_cases hu : unfinishedLines s > 0
        · rw [if_pos hu, if_pos ⟨.inr hmem, hlast.2 (by omega)⟩, List.singleton_append,
            pointsMid_A _ _ _ _ _ (hsep (by omega)), hih']
          simp
        · have hu0 : unfinishedLines s = 0 := by omega
          rw [if_neg hu, if_neg (fun hh => hlast.1 hh.2 hu0), List.nil_append, hih']
          simp
      · rw [if_neg h] at hih hsep ⊢
        simp only at hih hsep ⊢
        have h0 : numberOfLines s = 0 := by omega
        have hmem := numberOfLines_zero.1 h0
        have hu := unfinished_of_not_mem hmem
        rw [hposn, if_neg hmem]
        unfold plainLines
        rw [hposn, if_neg hmem]
        have e1 : col + c.unfinished + blen s = col + (c.unfinished + unfinishedLines s) := by
          rw [hu]; omega
        by_cases hc0 : c.unfinished = 0
        · have hcol0 := hcol hc0
          have hih' := hih l 0 (fun _ => rfl)
          subst hcol0
          by_cases hs : unfinishedLines s = 0
          · rw [if_neg (fun hh => by omega), if_neg (fun hh => hlast.1 hh.2 hs), List.nil_append, hih',
              e1, h0]
            simp
          · rw [if_pos ⟨hc0, by omega⟩, if_pos ⟨.inl (by simp [hc0]), hlast.2 hs⟩, List.singleton_append,
              pointsMid_A _ _ _ _ _ (hsep (by omega)), hih', e1, h0]
            simp
        · have hih' := hih l col (fun hh => by omega)
          rw [if_neg (fun hh => hc0 hh.1), if_neg (by
              rintro ⟨h1 | h1, _⟩
              · simp only at h1; omega
              · exact hmem h1), List.nil_append, hih', e1, h0]
          simp
    | source n =>
      refine mapped n.code n.source n.original n.startLine 1 ?_ hn.2 rfl rfl
      simp only [LNode.mappings]
      rw [LSource.mappings_eq hn.1]
    | single n =>
      refine mapped n.code n.source n.original n.line 0 ?_ hn.2 rfl rfl
      simp only [LNode.mappings]
      rw [LSingle.mappings_eq hn.1]
    | map ch =>
      simp only [LNode.mappings, LNode.piece, LNode.text, Piece.points, plainLines] at hih ⊢
      rw [if_neg (by simp)]
      exact hih l col hcol
    | idx i =>
      simp only [LNode.mappings, LNode.piece, LNode.text, Piece.points, plainLines] at hih ⊢
      rw [if_neg (by simp)]
      exact hih l col hcol

end WS
