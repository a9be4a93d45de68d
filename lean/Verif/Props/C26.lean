import Verif.Proofs.NodeText
import Verif.Proofs.Api
/-! # C26 OriginalSource maps every position to itself -/

namespace WS
open Spec

/-- The characters a statement ends with. -/
def Spec.ends (c : Char) : Prop := c ∈ ['\n', '\r', ';', '{', '}']

instance (c : Char) : Decidable (ends c) := by unfold ends; infer_instance

/-- A segment starts at `k`: a line does, or a run of ending characters is over. -/
def Spec.SegmentStart (v : List Char) (k : Nat) : Prop :=
  k = 0 ∨ v[k - 1]? = some '\n' ∨
    ∃ a b, v[k - 1]? = some a ∧ v[k]? = some b ∧ ends a ∧ ¬ ends b

/-- Carriage returns stand at ends of lines only. -/
def Spec.ReturnsAtEnd (v : List Char) : Prop :=
  ∀ a b, ∀ c, v = a ++ '\r' :: c :: b → c = '\r' ∨ c = '\n'

/-- The segments of a text: a new one starts after each newline and where a run of characters that end
statements is over. -/
def Spec.segments : List Char → List (List Char)
  | [] => []
  | [c] => [[c]]
  | c :: d :: s =>
    if c = '\n' ∨ (ends c ∧ ¬ ends d) then [c] :: segments (d :: s)
    else match segments (d :: s) with
      | [] => [[c]]
      | g :: gs => (c :: g) :: gs

/-- Unicode white space. -/
def Spec.white (c : Char) : Prop :=
  c ∈ [' ', '\t', '\n', '\x0b', '\x0c', '\r', '\u0085', '\u00a0', '\u1680', '\u2000', '\u2001', '\u2002',
    '\u2003', '\u2004', '\u2005', '\u2006', '\u2007', '\u2008', '\u2009', '\u200a', '\u2028', '\u2029',
    '\u202f', '\u205f', '\u3000']

instance (c : Char) : Decidable (white c) := by unfold white; infer_instance

/-- The line and column counted after a segment: columns are bytes, and a segment of nothing but white
space does not count. -/
def Spec.counted (p : Nat × Nat) (g : List Char) : Nat × Nat :=
  if '\n' ∈ g then (p.1 + 1, 0) else if ∀ c ∈ g, white c then p
  else (p.1, p.2 + (g.map Char.utf8Size).sum)

/-- For each character the line and column counted at the start of its segment, if that is not just white
space. -/
def Spec.countedPlaces : Nat × Nat → List (List Char) → List (Option (Nat × Nat))
  | _, [] => []
  | p, g :: gs => (g.map fun _ => if ∀ c ∈ g, white c then none else some p) ++ countedPlaces (counted p g) gs

/-- For each character the line and column of the start of its segment, if that is not just white space. -/
def Spec.startPlaces : Nat × Nat → List (List Char) → List (Option (Nat × Nat))
  | _, [] => []
  | p, g :: gs => (g.map fun _ => if ∀ c ∈ g, white c then none else some p) ++ startPlaces (posFrom p g) gs

theorem isSep_iff (c : Char) : isSep c = true ↔ ends c := by
  simp [isSep, ends, or_assoc]

/-- The start of a segment, seen from what is before and after. -/
def StartsHere (pre s : Str) : Prop :=
  pre = [] ∨ pre.getLast? = some '\n' ∨
    ∃ a b, pre.getLast? = some a ∧ s.head? = some b ∧ isSep a = true ∧ isSep b = false

/-- No segment starts inside. -/
def Inside (s : Str) : Prop :=
  ∀ (x y : Str) (a b : Char), s = x ++ a :: b :: y → a ≠ '\n' ∧ (isSep a = true → isSep b = true)

/-- Leaves after the text `pre` that are whole segments, attributed to their own place. -/
def SegOk (name : Int) : Str → List (Str × Option Origin) → Prop
  | _, [] => True
  | pre, (s, o) :: L => s ≠ [] ∧ StartsHere pre s ∧ Inside s ∧
      o = (if isBlank s then none else some ⟨name, (posAfter pre).1, (posAfter pre).2, none⟩) ∧
      SegOk name (pre ++ s) L

theorem SegOk.append {name : Int} : ∀ {A B : List (Str × Option Origin)} {pre : Str},
    SegOk name pre A → SegOk name (pre ++ leavesText A) B → SegOk name pre (A ++ B)
  | [], B, pre, _, h => by simpa [leavesText] using h
  | (s, o) :: A, B, pre, ⟨h1, h2, h3, h4, h5⟩, h => by
    refine ⟨h1, h2, h3, h4, SegOk.append h5 ?_⟩
    simpa [leavesText] using h

theorem posFrom_of_not_mem {s : Str} (h : '\n' ∉ s) : ∀ p, posFrom p s = (p.1, p.2 + s.length) := by
  induction s with
  | nil => intro p; rfl
  | cons c s ih =>
    intro p
    simp only [List.mem_cons, not_or] at h
    show posFrom (advance p c) s = _
    rw [ih h.2, advance, if_neg (Ne.symm h.1), List.length_cons]
    simp; omega

theorem blen_ascii {s : Str} (h : ∀ c ∈ s, c.utf8Size = 1) : blen s = s.length := by
  induction s with
  | nil => rfl
  | cons c s ih =>
    rw [blen_cons, h c (by simp), ih (fun c hc => h c (by simp [hc])), List.length_cons]; omega

theorem takeWhile_inside {p : Char → Bool} (s : Str) : ∀ c ∈ s.takeWhile p, p c = true := by
  intro c hc
  induction s with
  | nil => simp at hc
  | cons a s ih =>
    rw [List.takeWhile_cons] at hc
    split at hc
    · rcases List.mem_cons.1 hc with rfl | hc
      · assumption
      · exact ih hc
    · simp at hc

theorem dropWhile_head {p : Char → Bool} (s : Str) (c : Char) (r : Str) (h : s.dropWhile p = c :: r) :
    p c = false := by
  induction s with
  | nil => simp at h
  | cons a s ih =>
    rw [List.dropWhile_cons] at h
    split at h
    · exact ih h
    · cases h; rename_i hp; simpa using hp

/-- The cut of a line: segments end where ending characters end. -/
theorem splitItem_spec (line : Str) (hnl : ∀ a b, line = a ++ '\n' :: b → b = []) :
    Inside (splitItem line).1 ∧
    ((splitItem line).2 ≠ [] → ∃ a b r x, (splitItem line).1 = x ++ [a] ∧ (splitItem line).2 = b :: r ∧
      isSep a = true ∧ isSep b = false ∧ ((∀ c ∈ (splitItem line).1, isWs c = true) → a = '\r' ∨ a = '\n')) := by
  have hap := splitItem_append line
  have h1 := takeWhile_inside (p := (!isSep ·)) line
  have h2 := takeWhile_inside (p := isSep) (line.dropWhile (!isSep ·))
  have e : (splitItem line).1 = line.takeWhile (!isSep ·) ++ (line.dropWhile (!isSep ·)).takeWhile isSep := rfl
  have e2 : (splitItem line).2 = (line.dropWhile (!isSep ·)).dropWhile isSep := rfl
  generalize line.takeWhile (!isSep ·) = A at *
  generalize hD : line.dropWhile (!isSep ·) = D at *
  refine ⟨?_, ?_⟩
  · intro x y a b hs
    constructor
    · rintro rfl
      have := hnl x (b :: y ++ (splitItem line).2) (by rw [hs] at hap; simpa using hap.symm)
      simp at this
    · intro ha
      rw [e] at hs
      -- `a` is an ending character, hence in the second part, and so is `b`
      rcases List.append_eq_append_iff.1 hs with ⟨t, hx, hB⟩ | ⟨t, hA, hB⟩
      · exact h2 b (by rw [hB]; simp)
      · cases t with
        | nil => 
          simp only [List.nil_append] at hB
          exact h2 b (by rw [← hB]; simp)
        | cons a' t =>
          simp only [List.cons_append, List.cons.injEq] at hB
          have := h1 a (by rw [hA, ← hB.1]; simp)
          simp [ha] at this
  · intro hr
    obtain ⟨b, r, hbr⟩ : ∃ b r, (splitItem line).2 = b :: r := by
      cases h : (splitItem line).2 with
      | nil => exact absurd h hr
      | cons b r => exact ⟨b, r, rfl⟩
    have hb : isSep b = false := dropWhile_head D b r (by rw [← e2, hbr])
    have hDne : D.takeWhile isSep ≠ [] := by
      intro h0
      cases hD' : D with
      | nil => rw [e2, hD'] at hbr; simp at hbr
      | cons d D' =>
        have hd : (!isSep d) = false := dropWhile_head (p := (!isSep ·)) line d D' (by rw [hD, hD'])
        rw [hD', List.takeWhile_cons] at h0
        simp at hd
        simp [hd] at h0
    obtain ⟨x, a, hxa⟩ : ∃ x a, D.takeWhile isSep = x ++ [a] :=
      ⟨_, _, (List.dropLast_concat_getLast hDne).symm⟩
    refine ⟨a, b, r, A ++ x, by rw [e, hxa]; simp, hbr, h2 a (by rw [hxa]; simp), hb, ?_⟩
    intro hw
    have ha := h2 a (by rw [hxa]; simp)
    have hwa := hw a (by rw [e, hxa]; simp)
    simp only [isSep, Bool.or_eq_true, beq_iff_eq] at ha
    rcases ha with (((rfl | rfl) | rfl) | rfl) | rfl
    · exact .inr rfl
    · exact .inl rfl
    all_goals exact absurd hwa (by decide)

theorem posAfter_append_line {pre s : Str} (h : '\n' ∉ s) :
    posAfter (pre ++ s) = ((posAfter pre).1, (posAfter pre).2 + s.length) := by
  unfold posAfter
  rw [posFrom_append, posFrom_of_not_mem h]

theorem Spec.ReturnsAtEnd.suffix {a b : Str} (h : ReturnsAtEnd (a ++ b)) : ReturnsAtEnd b :=
  fun x y c e => h (a ++ x) y c (by rw [e]; simp)

theorem segOk_items (name : Int) (l : Nat) : ∀ (fuel : Nat) (line pre : Str) (pos : Nat),
    line.length ≤ fuel → (∀ a b, line = a ++ '\n' :: b → b = []) → ReturnsAtEnd line →
    (∀ c ∈ line, c.utf8Size = 1) → (line ≠ [] → StartsHere pre line) → posAfter pre = (l, pos) →
    SegOk name pre (itemLeaves name l pos (lineItems fuel line))
  | fuel, [], _, _, _, _, _, _, _, _ => by cases fuel <;> trivial
  | 0, _ :: _, _, _, h, _, _, _, _, _ => by simp at h
  | fuel + 1, c :: cs, pre, pos, hf, hnl, hret, hasc, hst, hpos => by
    have hap := splitItem_append (c :: cs)
    have hne := splitItem_ne (line := c :: cs) (by simp)
    obtain ⟨hin, hnext⟩ := splitItem_spec (c :: cs) hnl
    rw [lineItems]
    dsimp only
    generalize splitItem (c :: cs) = q at *
    obtain ⟨item, rest⟩ := q
    dsimp only at *
    have hlen := congrArg List.length hap
    rw [List.length_append] at hlen
    have hil : 0 < item.length := List.length_pos_iff.2 hne
    have hhead : item.head? = some c := by
      cases item with
      | nil => exact absurd rfl hne
      | cons a i => simp at hap; simp [hap.1]
    have hsh : StartsHere pre item := by
      rcases hst (by simp) with h | h | ⟨a, b, h1, h2, h3⟩
      · exact .inl h
      · exact .inr (.inl h)
      · refine .inr (.inr ⟨a, b, h1, ?_, h3⟩)
        rw [hhead]; simpa using h2
    have hitemnl : rest ≠ [] → '\n' ∉ item := by
      intro hr hm
      obtain ⟨x, y, e⟩ := List.append_of_mem hm
      apply hr
      have := hnl x (y ++ rest) (by rw [← hap, e]; simp)
      simp at this
      exact this.2
    have hmem : ∀ c' ∈ item, c'.utf8Size = 1 := fun c' hc' => hasc c' (by rw [← hap]; simp [hc'])
    have ho : (some ⟨name, l, pos, none⟩ : Option Origin) =
        some ⟨name, (posAfter pre).1, (posAfter pre).2, none⟩ := by rw [hpos]
    rw [itemLeaves]
    by_cases hb : isBlank item = true
    · rw [if_pos hb]
      refine ⟨hne, hsh, hin, by rw [if_pos hb], ?_⟩
      -- a blank item is the last one
      have hrest : rest = [] := by
        by_cases hr : rest = []
        · exact hr
        · exfalso
          obtain ⟨a, b, r, x, e1, e2, ha, hbb, hw⟩ := hnext hr
          have hw := hw (by intro d hd; exact List.all_eq_true.1 hb d hd)
          rcases hw with rfl | rfl
          · have := hret x r b (by rw [← hap, e1, e2]; simp)
            rcases this with rfl | rfl <;> simp [isSep] at hbb
          · exact hitemnl hr (by rw [e1]; simp)
      rw [hrest]
      cases fuel <;> trivial
    · rw [if_neg hb]
      refine ⟨hne, hsh, hin, by rw [if_neg hb, ho], ?_⟩
      by_cases hr : rest = []
      · rw [hr]; cases fuel <;> trivial
      · obtain ⟨a, b, r, x, e1, e2, ha, hbb, _⟩ := hnext hr
        refine segOk_items name l fuel rest (pre ++ item) (pos + blen item) (by omega) ?_ ?_ ?_ ?_ ?_
        · intro x y e; exact hnl (item ++ x) y (by rw [← hap, e]; simp)
        · rw [← hap] at hret; exact hret.suffix
        · intro c' hc'; exact hasc c' (by rw [← hap]; simp [hc'])
        · intro _
          exact .inr (.inr ⟨a, b, by rw [e1]; simp, by rw [e2]; rfl, ha, hbb⟩)
        · rw [posAfter_append_line (hitemnl hr), hpos, blen_ascii hmem]

theorem posAfter_nl (pre x : Str) (h : '\n' ∉ x) :
    posAfter (pre ++ (x ++ ['\n'])) = ((posAfter pre).1 + 1, 0) := by
  rw [← List.append_assoc, posAfter_snoc, posAfter_append_line h]
  rfl

theorem Spec.ReturnsAtEnd.prefix {a b : Str} (h : ReturnsAtEnd (a ++ b)) : ReturnsAtEnd a :=
  fun x y c e => h x (y ++ b) c (by rw [e]; simp)

theorem segOk_lines (name : Int) (v : Str) : ∀ (pre : Str) (i : Nat), ReturnsAtEnd v →
    (∀ c ∈ v, c.utf8Size = 1) → (pre = [] ∨ pre.getLast? = some '\n') → posAfter pre = (i, 0) →
    SegOk name pre (linesLeaves true name i (splitKeep '\n' v)) := by
  induction v using piece_induction '\n' with
  | base s h =>
    intro pre i hret hasc hpre hpos
    rw [splitKeep_of_not_mem h, linesLeaves, linesLeaves, List.append_nil, lineLeaves, if_pos rfl]
    refine segOk_items name i _ s pre 0 (Nat.le_refl _) ?_ hret hasc ?_ hpos
    · intro a b e; exact absurd (by rw [e]; simp) h
    · intro _; exact hpre.imp id .inl
  | step x r hx ih =>
    intro pre i hret hasc hpre hpos
    have e : x ++ '\n' :: r = (x ++ ['\n']) ++ r := by simp
    rw [splitKeep_append_sep hx, linesLeaves]
    rw [e] at hret hasc
    have hl : SegOk name pre (lineLeaves true name i (x ++ ['\n'])) := by
      rw [lineLeaves, if_pos rfl]
      refine segOk_items name i _ _ pre 0 (Nat.le_refl _) ?_ hret.prefix ?_ ?_ hpos
      · intro a b e
        rcases List.append_eq_append_iff.1 e with ⟨t, h1, h2⟩ | ⟨t, h1, h2⟩
        · cases t with
          | nil => simp at h2; exact h2
          | cons d t => simp at h2
        · cases t with
          | nil => simp at h2; exact h2
          | cons d t =>
            simp at h2
            exact absurd (by rw [h1, ← h2.1]; simp) hx
      · intro c hc; exact hasc c (List.mem_append_left _ hc)
      · intro _; exact hpre.imp id .inl
    refine SegOk.append hl ?_
    have ht : leavesText (lineLeaves true name i (x ++ ['\n'])) = x ++ ['\n'] := by
      rw [lineLeaves, if_pos rfl, itemLeaves_text, (lineItems_spec _ _ (Nat.le_refl _)).1]
    rw [ht]
    refine ih _ _ hret.suffix (fun c hc => hasc c (List.mem_append_right _ hc)) (.inr (by simp)) ?_
    rw [posAfter_nl pre x hx, hpos]

/-! ## The points -/

/-- The mapping says: this place comes from this place. -/
def SelfMapped (name : Int) (m : Mapping) : Prop :=
  ∀ o, m.point.origin = some o → o = ⟨name, m.generated.1, m.generated.2, none⟩

theorem core_head_self {name : Int} {c : Core} {s : Str}
    {o : Option Origin} (h : ∀ m ∈ c.mappings.list, SelfMapped name m)
    (ho : o = (if isBlank s then none else some ⟨name, c.gen.1, c.gen.2, none⟩)) :
    (∀ m ∈ (c.head o).mappings.list, SelfMapped name m) ∧ (c.head o).gen = c.gen := by
  subst ho
  split
  · unfold Core.head
    dsimp only
    split
    · refine ⟨?_, rfl⟩
      rw [MappingList.add_list]
      intro m hm
      rcases List.mem_append.1 hm with hm | hm
      · exact h m hm
      · simp only [List.mem_singleton] at hm
        subst hm
        intro o ho; cases ho
    · exact ⟨h, rfl⟩
  · unfold Core.head
    dsimp only
    refine ⟨?_, rfl⟩
    split
    · rw [MappingList.add_list]
      intro m hm
      rcases List.mem_append.1 hm with hm | hm
      · exact h m hm
      · simp only [List.mem_singleton] at hm
        subst hm
        intro o ho
        cases ho
        rfl
    · exact h

theorem core_chars_gen (o : Option Origin) : ∀ (s : Str) (c : Core),
    (Core.chars o c s).gen = posFrom c.gen s
  | [], c => rfl
  | ch :: s, c => by
    rw [Core.chars]
    show _ = posFrom (advance c.gen ch) s
    by_cases hc : ch = '\n'
    · rw [if_pos hc, core_chars_gen o s, advance, if_pos hc]
      congr 1
      dsimp only
      split
      · rfl
      · split <;> rfl
    · rw [if_neg hc, core_chars_gen o s, advance, if_neg hc]

theorem core_chars_inside (o : Option Origin) : ∀ (s : Str) (c : Core), Inside s →
    (Core.chars o c s).mappings = c.mappings
  | [], c, _ => rfl
  | ch :: s, c, h => by
    have hs : Inside s := fun x y a b e => h (ch :: x) y a b (by rw [e]; rfl)
    rw [Core.chars]
    by_cases hc : ch = '\n'
    · rw [if_pos hc, core_chars_inside o s _ hs]
      cases s with
      | nil => rfl
      | cons d s => exact absurd hc (h [] s ch d rfl).1
    · rw [if_neg hc, core_chars_inside o s _ hs]

theorem core_walk_self (name : Int) : ∀ (L : List (Str × Option Origin)) (pre : Str) (c : Core),
    SegOk name pre L → c.gen = posAfter pre → (∀ m ∈ c.mappings.list, SelfMapped name m) →
    ∀ m ∈ (c.walk L).mappings.list, SelfMapped name m
  | [], _, _, _, _, h => h
  | (s, o) :: L, pre, c, ⟨_, _, h3, h4, h5⟩, hg, h => by
    rw [Core.walk]
    obtain ⟨k1, k2⟩ := core_head_self (s := s) (o := o) h (by rw [hg]; exact h4)
    refine core_walk_self name L (pre ++ s) _ h5 ?_ ?_
    · rw [core_chars_gen, k2, hg]
      unfold posAfter
      rw [posFrom_append]
    · rw [core_chars_inside _ _ _ h3]; exact k1

/-- The segment a character lies in. -/
theorem segOk_find (name : Int) : ∀ (L : List (Str × Option Origin)) (pre : Str) (j : Nat),
    SegOk name pre L → j < (leavesText L).length →
    ∃ A s o B, L = A ++ (s, o) :: B ∧ (leavesText A).length ≤ j ∧
      j < (leavesText A).length + s.length ∧ StartsHere (pre ++ leavesText A) s ∧ Inside s ∧
      o = (if isBlank s then none else some ⟨name, (posAfter (pre ++ leavesText A)).1,
        (posAfter (pre ++ leavesText A)).2, none⟩)
  | [], _, j, _, h => by simp [leavesText] at h
  | (s, o) :: L, pre, j, ⟨h1, h2, h3, h4, h5⟩, hj => by
    by_cases hlt : j < s.length
    · exact ⟨[], s, o, L, rfl, by simp [leavesText], by simpa [leavesText] using hlt,
        by simpa [leavesText] using h2, h3, by simpa [leavesText] using h4⟩
    · have hlen : (leavesText ((s, o) :: L)).length = s.length + (leavesText L).length := by
        simp [leavesText]
      rw [hlen] at hj
      obtain ⟨A, s', o', B, e, k1, k2, k3, k4, k5⟩ := segOk_find name L (pre ++ s) (j - s.length) h5 (by omega)
      have ht : leavesText ((s, o) :: A) = s ++ leavesText A := by simp [leavesText]
      refine ⟨(s, o) :: A, s', o', B, by rw [e]; rfl, ?_, ?_, ?_, k4, ?_⟩
      · rw [ht, List.length_append]; omega
      · rw [ht, List.length_append]; omega
      · rw [ht, ← List.append_assoc]; exact k3
      · rw [ht, ← List.append_assoc]; exact k5

theorem posAfter_line (s : Str) : (posAfter s).1 = 1 + s.count '\n' := by
  induction s using snoc_induction with
  | nil => rfl
  | snoc s c ih =>
    rw [posAfter_snoc, advance]
    split
    · rename_i h; subst h; simp [ih]; omega
    · rename_i h; simp [ih, h]

theorem segOk_leafOk (name : Int) : ∀ (L : List (Str × Option Origin)) (pre : Str), SegOk name pre L →
    (pre ++ leavesText L).count '\n' < 4294967296 → ∀ l ∈ L, LeafOk l
  | [], _, _, _, l, hl => by cases hl
  | (s, o) :: L, pre, ⟨h1, h2, h3, h4, h5⟩, hc, l, hl => by
    have ht : leavesText ((s, o) :: L) = s ++ leavesText L := by simp [leavesText]
    rw [ht, ← List.append_assoc] at hc
    rcases List.mem_cons.1 hl with rfl | hl
    · intro o' ho
      dsimp only at ho
      rw [h4] at ho
      split at ho
      · cases ho
      · cases ho
        refine ⟨h1, ?_, ?_⟩
        · show 1 ≤ (posAfter pre).1
          rw [posAfter_line]; omega
        · show (posAfter pre).1 ≤ _
          rw [posAfter_line]
          simp only [List.count_append] at hc
          omega
    · exact segOk_leafOk name L (pre ++ s) h5 hc l hl

/-- Starts in a text made of two parts. -/
theorem segmentStart_append (pre s : Str) :
    SegmentStart (pre ++ s) pre.length ↔ StartsHere pre s := by
  have e1 : ∀ (t : Str), t ≠ [] → (t ++ s)[t.length - 1]? = t.getLast? := by
    intro t ht
    have : 0 < t.length := List.length_pos_iff.2 ht
    rw [List.getElem?_append_left (by omega), List.getLast?_eq_getElem?]
  have e2 : (pre ++ s)[pre.length]? = s.head? := by
    rw [List.getElem?_append_right (Nat.le_refl _), Nat.sub_self, List.head?_eq_getElem?]
  have iff : ∀ a b, (ends a ∧ ¬ ends b) ↔ (isSep a = true ∧ isSep b = false) := by
    intro a b
    rw [← isSep_iff, ← isSep_iff]
    simp
  unfold SegmentStart StartsHere
  rw [e2]
  by_cases hp : pre = []
  · simp [hp]
  · rw [e1 pre hp]
    simp only [iff, List.length_eq_zero_iff]

/-- No start strictly inside a segment. -/
theorem inside_not_start {A s B : Str} (h : Inside s) {i : Nat} (h1 : A.length < i)
    (h2 : i < A.length + s.length) : ¬ SegmentStart (A ++ s ++ B) i := by
  obtain ⟨x, a, b, y, e, hx⟩ : ∃ x a b y, s = x ++ a :: b :: y ∧ x.length = i - 1 - A.length := by
    refine ⟨s.take (i - 1 - A.length), s[i - 1 - A.length]'(by omega), s[i - A.length]'(by omega),
      s.drop (i - A.length + 1), ?_, ?_⟩
    · conv => lhs; rw [← List.take_append_drop (i - 1 - A.length) s]
      congr 1
      rw [List.drop_eq_getElem_cons (by omega)]
      congr 1
      have e' : i - 1 - A.length + 1 = i - A.length := by omega
      rw [e', List.drop_eq_getElem_cons (by omega)]
    · rw [List.length_take]; omega
  obtain ⟨k1, k2⟩ := h x y a b e
  have g1 : (A ++ s ++ B)[i - 1]? = some a := by
    rw [e]
    have : i - 1 = (A ++ x).length := by rw [List.length_append]; omega
    rw [this]
    simp only [List.append_assoc]
    rw [← List.append_assoc, List.getElem?_append_right (Nat.le_refl _)]
    simp
  have g2 : (A ++ s ++ B)[i]? = some b := by
    rw [e]
    have : i = (A ++ x ++ [a]).length := by
      rw [List.length_append, List.length_append, List.length_singleton]; omega
    rw [this]
    have : A ++ (x ++ a :: b :: y) ++ B = (A ++ x ++ [a]) ++ (b :: y ++ B) := by simp
    rw [this, List.getElem?_append_right (Nat.le_refl _)]
    simp
  rintro (h | h | ⟨a', b', h3, h4, h5, h6⟩)
  · omega
  · rw [g1] at h; cases h; exact k1 rfl
  · rw [g1] at h3; rw [g2] at h4
    cases h3; cases h4
    exact h6 ((isSep_iff b).1 (k2 ((isSep_iff a).2 h5)))

/-- The map of a node has exactly the points of the walk over its leaves. -/
theorem walk_points (n : SmNode) (file : Option Int) (root : Option Str)
    (hok : ∀ l ∈ n.leaves, LeafOk l) :
    ∃ r, n.toStringWithSourceMap file root = .ok r ∧
      mapPoints r.map = some ((Core.new.walk n.leaves).mappings.list.map Mapping.point) := by
  have h := SmNode.walk_inv n (WalkCtx.new_inv file root) hok
  have hsort : (n.walk (WalkCtx.new file root)).map.mappings.sort.list =
      (n.walk (WalkCtx.new file root)).map.mappings.list := by
    rw [MappingList.sort_list h.truthful]
    exact sortBy_of_pairwise _ h.ordered
  obtain ⟨m, e, _, _, _, hp⟩ := Generator.toSourceMap_ok h.ok (by rw [hsort]; exact h.ordered)
  refine ⟨⟨(n.walk (WalkCtx.new file root)).code, m⟩, ?_, ?_⟩
  · unfold SmNode.toStringWithSourceMap
    dsimp only
    rw [e]
  · dsimp only
    rw [hp, hsort]
    have := congrArg Core.mappings (SmNode.walk_core n (WalkCtx.new file root))
    have h2 : (n.walk (WalkCtx.new file root)).map.mappings = (Core.new.walk n.leaves).mappings := this
    rw [h2]

/-- C26, for texts of single-byte characters whose carriage returns stand at ends of lines (and of
fewer than 2^32 lines). In the column-level map of an `OriginalSource` every mapped point maps its own
position to itself, and a character of a segment that is not blank is looked up as the place where the
segment starts. Missing for the full claim: see `C26_not_general`. -/
theorem C26_identity_partial (v : Str) (name idx : Int) (file : Option Int) (root : Option Str)
    (hasc : ∀ c ∈ v, c.utf8Size = 1) (hret : ReturnsAtEnd v) (hlines : v.count '\n' < 4294967296) :
    ∃ r ps, (originalNode true v name idx).toStringWithSourceMap file root = .ok r ∧
      mapPoints r.map = some ps ∧
      (∀ p ∈ ps, ∀ o, p.origin = some o → o = ⟨name, p.line, p.col, none⟩) ∧
      (∀ (j k : Nat) (c : Char), v[j]? = some c → isWs c = false → k ≤ j → SegmentStart v k →
        (∀ i, k < i → i ≤ j → ¬ SegmentStart v i) →
        lookup ps (posAfter (v.take j)).1 (posAfter (v.take j)).2 =
          some ⟨name, (posAfter (v.take k)).1, (posAfter (v.take k)).2, none⟩) := by
  have hleaves := originalNode_leaves true v name idx
  have hseg := segOk_lines name v [] 1 hret hasc (.inl rfl) rfl
  rw [← hleaves] at hseg
  have htext : leavesText (originalNode true v name idx).leaves = v := by
    rw [hleaves, (linesLeaves_spec ..).1, splitKeep_flatten]
  have hok := segOk_leafOk name _ [] hseg (by rw [htext]; exact hlines)
  obtain ⟨r, e1, e2⟩ := walk_points (originalNode true v name idx) file root hok
  obtain ⟨r', ps, e1', e2', hattr, _, _⟩ := C09_attribution_partial (originalNode true v name idx) file root hok
  rw [e1] at e1'; cases e1'
  rw [e2] at e2'; cases e2'
  refine ⟨r, _, e1, e2, ?_, ?_⟩
  · intro p hp o ho
    obtain ⟨m, hm, rfl⟩ := List.mem_map.1 hp
    exact core_walk_self name _ [] Core.new hseg rfl (by intro m hm; cases hm) m hm o ho
  · intro j k c hj hc hkj hk hno
    have hjl : j < v.length := (List.getElem?_eq_some_iff.1 hj).1
    obtain ⟨A, s, o, B, eL, k1, k2, k3, k4, k5⟩ := segOk_find name _ [] j hseg (by rw [htext]; exact hjl)
    rw [List.nil_append] at k3 k5
    have hv : v = leavesText A ++ s ++ leavesText B := by
      rw [← htext, eL]; simp [leavesText]
    have hs : s ≠ [] := by rintro rfl; simp at k2; omega
    -- the start found is the start given
    have hkA : k = (leavesText A).length := by
      have hstart : SegmentStart v (leavesText A).length := by
        rw [hv, List.append_assoc, segmentStart_append]
        rcases k3 with h | h | ⟨a, b, h1, h2, h3⟩
        · exact .inl h
        · exact .inr (.inl h)
        · refine .inr (.inr ⟨a, b, h1, ?_, h3⟩)
          cases s with
          | nil => exact absurd rfl hs
          | cons d s => exact h2
      rcases Nat.lt_trichotomy k (leavesText A).length with h | h | h
      · exact absurd hstart (hno _ h k1)
      · exact h
      · rw [hv] at hk
        exact absurd hk (inside_not_start k4 h (by omega))
    subst hkA
    have htk : v.take (leavesText A).length = leavesText A := by
      conv => lhs; rw [hv]
      rw [List.append_assoc, List.take_left]
    rw [htk]
    -- the character is not blank, so its segment is mapped
    have hmem : c ∈ s := by
      rw [hv, List.getElem?_append_left (by rw [List.length_append]; omega),
        List.getElem?_append_right k1] at hj
      exact List.mem_of_getElem? hj
    have hb : isBlank s = false := by
      cases hb : isBlank s with
      | false => rfl
      | true => rw [List.all_eq_true.1 hb c hmem] at hc; cases hc
    rw [hb] at k5
    have hmark : (originalNode true v name idx).marks[j]? = some (c, o) := by
      unfold SmNode.marks
      rw [eL]
      have hml : ∀ L : List (Str × Option Origin), (marked L).length = (leavesText L).length := by
        intro L
        have : (marked L).map Prod.fst = leavesText L := by
          simp [marked, leavesText, Function.comp_def, List.flatMap]
        rw [← this, List.length_map]
      have hm : marked (A ++ (s, o) :: B) = marked A ++ (s.map (fun c => (c, o)) ++ marked B) := by
        simp [marked]
      rw [hm, List.getElem?_append_right (by rw [hml]; exact k1), hml,
        List.getElem?_append_left (by rw [List.length_map]; omega), List.getElem?_map]
      have : s[j - (leavesText A).length]? = some c := by
        rw [hv, List.getElem?_append_left (by rw [List.length_append]; omega),
          List.getElem?_append_right k1] at hj
        exact hj
      rw [this]; rfl
    have hlk := hattr j c o hmark
    rw [List.map_take] at hlk
    have hfst : (originalNode true v name idx).marks.map Prod.fst = v := by
      rw [SmNode.marks_text]; exact htext
    rw [hfst] at hlk
    rw [hlk, k5]
    rfl

/-! ## Every text -/

theorem white_iff {c : Char} : isWs c = true ↔ white c := by
  have e : ∀ d : Char, c = d ↔ c.toNat = d.toNat := fun d => Char.toNat_inj.symm
  simp only [isWs, white, List.mem_cons, List.not_mem_nil, or_false, e, Bool.or_eq_true, Bool.and_eq_true,
    decide_eq_true_eq, beq_iff_eq]
  simp only [show ' '.toNat = 32 from rfl, show '\t'.toNat = 9 from rfl, show '\n'.toNat = 10 from rfl,
    show '\x0b'.toNat = 11 from rfl, show '\x0c'.toNat = 12 from rfl, show '\r'.toNat = 13 from rfl,
    show '\u0085'.toNat = 0x85 from rfl, show '\u00a0'.toNat = 0xa0 from rfl, show '\u1680'.toNat = 0x1680 from rfl,
    show '\u2000'.toNat = 0x2000 from rfl, show '\u2001'.toNat = 0x2001 from rfl,
    show '\u2002'.toNat = 0x2002 from rfl, show '\u2003'.toNat = 0x2003 from rfl,
    show '\u2004'.toNat = 0x2004 from rfl, show '\u2005'.toNat = 0x2005 from rfl,
    show '\u2006'.toNat = 0x2006 from rfl, show '\u2007'.toNat = 0x2007 from rfl,
    show '\u2008'.toNat = 0x2008 from rfl, show '\u2009'.toNat = 0x2009 from rfl,
    show '\u200a'.toNat = 0x200a from rfl, show '\u2028'.toNat = 0x2028 from rfl,
    show '\u2029'.toNat = 0x2029 from rfl, show '\u202f'.toNat = 0x202f from rfl,
    show '\u205f'.toNat = 0x205f from rfl, show '\u3000'.toNat = 0x3000 from rfl]
  omega

theorem blank_iff {s : Str} : isBlank s = true ↔ ∀ c ∈ s, white c := by
  rw [isBlank, List.all_eq_true]
  exact ⟨fun h c hm => white_iff.1 (h c hm), fun h c hm => white_iff.2 (h c hm)⟩

theorem counted_nl {p : Nat × Nat} {s : Str} (h : '\n' ∈ s) : counted p s = (p.1 + 1, 0) := by
  rw [counted, if_pos h]

theorem counted_line {p : Nat × Nat} {s : Str} (h : '\n' ∉ s) :
    counted p s = if isBlank s then p else (p.1, p.2 + blen s) := by
  rw [counted, if_neg h]
  by_cases hb : isBlank s = true
  · rw [if_pos hb, if_pos (blank_iff.1 hb)]
  · rw [if_neg hb, if_neg (fun h => hb (blank_iff.2 h))]; rfl

/-- Leaves after the text `pre` that are whole segments, attributed to the place counted. -/
def SegAt (name : Int) : Str → Nat × Nat → List (Str × Option Origin) → Prop
  | _, _, [] => True
  | pre, q, (s, o) :: L => s ≠ [] ∧ StartsHere pre s ∧ Inside s ∧
      o = (if isBlank s then none else some ⟨name, q.1, q.2, none⟩) ∧ SegAt name (pre ++ s) (counted q s) L

theorem SegAt.append {name : Int} : ∀ {A B : List (Str × Option Origin)} {pre : Str} {q : Nat × Nat},
    SegAt name pre q A → SegAt name (pre ++ leavesText A) ((A.map Prod.fst).foldl counted q) B →
    SegAt name pre q (A ++ B)
  | [], B, pre, q, _, h => by simpa [leavesText] using h
  | (s, o) :: A, B, pre, q, ⟨h1, h2, h3, h4, h5⟩, h => by
    refine ⟨h1, h2, h3, h4, SegAt.append h5 ?_⟩
    simpa [leavesText] using h

/-- The items of a line; a line that ends is counted. -/
theorem segAt_items (name : Int) (l : Nat) : ∀ (fuel : Nat) (line pre : Str) (pos : Nat),
    line.length ≤ fuel → (∀ a b, line = a ++ '\n' :: b → b = []) → (line ≠ [] → StartsHere pre line) →
    SegAt name pre (l, pos) (itemLeaves name l pos (lineItems fuel line)) ∧
    ('\n' ∈ line →
      ((itemLeaves name l pos (lineItems fuel line)).map Prod.fst).foldl counted (l, pos) = (l + 1, 0))
  | fuel, [], _, _, _, _, _ => by cases fuel <;> exact ⟨trivial, fun h => by simp at h⟩
  | 0, _ :: _, _, _, h, _, _ => by simp at h
  | fuel + 1, c :: cs, pre, pos, hf, hnl, hst => by
    have hap := splitItem_append (c :: cs)
    have hne := splitItem_ne (line := c :: cs) (by simp)
    obtain ⟨hin, hnext⟩ := splitItem_spec (c :: cs) hnl
    rw [lineItems]
    dsimp only
    generalize splitItem (c :: cs) = q at *
    obtain ⟨item, rest⟩ := q
    dsimp only at *
    have hlen := congrArg List.length hap
    rw [List.length_append] at hlen
    have hil : 0 < item.length := List.length_pos_iff.2 hne
    have hhead : item.head? = some c := by
      cases item with
      | nil => exact absurd rfl hne
      | cons a i => simp at hap; simp [hap.1]
    have hsh : StartsHere pre item := by
      rcases hst (by simp) with h | h | ⟨a, b, h1, h2, h3⟩
      · exact .inl h
      · exact .inr (.inl h)
      · refine .inr (.inr ⟨a, b, h1, ?_, h3⟩)
        rw [hhead]; simpa using h2
    have hitemnl : rest ≠ [] → '\n' ∉ item := by
      intro hr hm
      obtain ⟨x, y, e⟩ := List.append_of_mem hm
      apply hr
      have := hnl x (y ++ rest) (by rw [← hap, e]; simp)
      simp at this
      exact this.2
    have hmem : '\n' ∈ c :: cs ↔ '\n' ∈ item ∨ '\n' ∈ rest := by rw [← hap, List.mem_append]
    -- what follows the item
    have key : ∀ pos', (rest ≠ [] → counted (l, pos) item = (l, pos')) →
        SegAt name (pre ++ item) (counted (l, pos) item) (itemLeaves name l pos' (lineItems fuel rest)) ∧
        ('\n' ∈ c :: cs → ((itemLeaves name l pos' (lineItems fuel rest)).map Prod.fst).foldl counted
          (counted (l, pos) item) = (l + 1, 0)) := by
      intro pos' hp
      by_cases hr : rest = []
      · subst hr
        have e : lineItems fuel [] = [] := by cases fuel <;> rfl
        rw [e]
        refine ⟨trivial, fun h => ?_⟩
        rw [hmem] at h
        exact counted_nl (h.resolve_right (by simp))
      · obtain ⟨a, b, r, x, e1, e2, ha, hbb, _⟩ := hnext hr
        rw [hp hr]
        obtain ⟨i1, i2⟩ := segAt_items name l fuel rest (pre ++ item) pos' (by omega)
          (fun x y e => hnl (item ++ x) y (by rw [← hap, e]; simp))
          (fun _ => .inr (.inr ⟨a, b, by rw [e1]; simp, by rw [e2]; rfl, ha, hbb⟩))
        exact ⟨i1, fun h => i2 ((hmem.1 h).resolve_left (hitemnl hr))⟩
    rw [itemLeaves]
    by_cases hb : isBlank item = true
    · rw [if_pos hb]
      obtain ⟨k1, k2⟩ := key pos (fun hr => by rw [counted_line (hitemnl hr), if_pos hb])
      exact ⟨⟨hne, hsh, hin, by rw [if_pos hb], k1⟩, k2⟩
    · rw [if_neg hb]
      obtain ⟨k1, k2⟩ := key (pos + blen item) (fun hr => by rw [counted_line (hitemnl hr), if_neg hb])
      exact ⟨⟨hne, hsh, hin, by rw [if_neg hb], k1⟩, k2⟩

theorem segAt_lines (name : Int) (v : Str) : ∀ (pre : Str) (i : Nat), (pre = [] ∨ pre.getLast? = some '\n') →
    SegAt name pre (i, 0) (linesLeaves true name i (splitKeep '\n' v)) := by
  induction v using piece_induction '\n' with
  | base s h =>
    intro pre i hpre
    rw [splitKeep_of_not_mem h, linesLeaves, linesLeaves, List.append_nil, lineLeaves, if_pos rfl]
    refine (segAt_items name i _ s pre 0 (Nat.le_refl _) ?_ ?_).1
    · intro a b e; exact absurd (by rw [e]; simp) h
    · intro _; exact hpre.imp id .inl
  | step x r hx ih =>
    intro pre i hpre
    rw [splitKeep_append_sep hx, linesLeaves]
    have hl : SegAt name pre (i, 0) (lineLeaves true name i (x ++ ['\n'])) ∧
        ('\n' ∈ x ++ ['\n'] → ((lineLeaves true name i (x ++ ['\n'])).map Prod.fst).foldl counted (i, 0) = (i + 1, 0)) := by
      rw [lineLeaves, if_pos rfl]
      refine segAt_items name i _ _ pre 0 (Nat.le_refl _) ?_ ?_
      · intro a b e
        rcases List.append_eq_append_iff.1 e with ⟨t, h1, h2⟩ | ⟨t, h1, h2⟩
        · cases t with
          | nil => simp at h2; exact h2
          | cons d t => simp at h2
        · cases t with
          | nil => simp at h2; exact h2
          | cons d t =>
            simp at h2
            exact absurd (by rw [h1, ← h2.1]; simp) hx
      · intro _; exact hpre.imp id .inl
    have ht : leavesText (lineLeaves true name i (x ++ ['\n'])) = x ++ ['\n'] := by
      rw [lineLeaves, if_pos rfl, itemLeaves_text, (lineItems_spec _ _ (Nat.le_refl _)).1]
    refine SegAt.append hl.1 ?_
    rw [ht, hl.2 (by simp)]
    exact ih _ _ (.inr (by simp))

/-- The first segment. -/
theorem segments_cons {s r : Str} (hs : s ≠ []) (hi : Inside s)
    (hr : r = [] ∨ s.getLast? = some '\n' ∨ ∃ a b, s.getLast? = some a ∧ r.head? = some b ∧ isSep a = true ∧ isSep b = false) :
    segments (s ++ r) = s :: segments r := by
  induction s with
  | nil => exact absurd rfl hs
  | cons c s ih =>
    cases s with
    | nil =>
      cases r with
      | nil => rfl
      | cons d r =>
        rw [List.singleton_append, segments, if_pos]
        rcases hr with h | h | ⟨a, b, h1, h2, h3, h4⟩
        · cases h
        · left; simpa using h
        · right
          simp at h1 h2
          subst h1 h2
          exact ⟨(isSep_iff _).1 h3, fun h => by rw [(isSep_iff _).2 h] at h4; cases h4⟩
    | cons d s =>
      have hin : Inside (d :: s) := fun x y a b e => hi (c :: x) y a b (by rw [e]; rfl)
      have := ih (by simp) hin (by simpa using hr)
      have hc := hi [] s c d rfl
      rw [List.cons_append, List.cons_append, segments, if_neg]
      · rw [List.cons_append] at this
        rw [this]
      · rintro (h | ⟨h1, h2⟩)
        · exact hc.1 h
        · exact h2 ((isSep_iff _).1 (hc.2 ((isSep_iff _).2 h1)))

/-- What starts after a segment. -/
theorem startsHere_next {pre s r : Str} (hs : s ≠ []) (h : r ≠ [] → StartsHere (pre ++ s) r) :
    r = [] ∨ s.getLast? = some '\n' ∨ ∃ a b, s.getLast? = some a ∧ r.head? = some b ∧ isSep a = true ∧ isSep b = false := by
  by_cases hr : r = []
  · exact .inl hr
  · have hl : (pre ++ s).getLast? = s.getLast? := by
      rw [List.getLast?_append]
      cases hg : s.getLast? with
      | none => exact absurd (List.getLast?_eq_none_iff.1 hg) hs
      | some x => rfl
    rcases h hr with g | g | ⟨a, b, g3, g4, g5⟩
    · simp [hs] at g
    · rw [hl] at g; exact .inr (.inl g)
    · rw [hl] at g3; exact .inr (.inr ⟨a, b, g3, g4, g5⟩)

theorem startsHere_left {pre s r : Str} (hs : s ≠ []) (h : StartsHere pre s) : StartsHere pre (s ++ r) := by
  rcases h with h | h | ⟨a, b, h1, h2, h3⟩
  · exact .inl h
  · exact .inr (.inl h)
  · refine .inr (.inr ⟨a, b, h1, ?_, h3⟩)
    cases s with
    | nil => exact absurd rfl hs
    | cons x s => exact h2

/-- Leaves that are segments: their texts are the segments of the text. -/
theorem segAt_segments (name : Int) : ∀ (L : List (Str × Option Origin)) (pre : Str) (q : Nat × Nat),
    SegAt name pre q L → segments (leavesText L) = L.map Prod.fst ∧ (leavesText L ≠ [] → StartsHere pre (leavesText L))
  | [], _, _, _ => ⟨rfl, fun h => absurd rfl h⟩
  | (s, o) :: L, pre, q, ⟨h1, h2, h3, h4, h5⟩ => by
    obtain ⟨i1, i2⟩ := segAt_segments name L (pre ++ s) _ h5
    have e : leavesText ((s, o) :: L) = s ++ leavesText L := by simp [leavesText]
    rw [e, segments_cons h1 h3 (startsHere_next h1 i2), i1]
    exact ⟨rfl, fun _ => startsHere_left h1 h2⟩

/-- The origins of leaves that are segments. -/
theorem segAt_places (name : Int) : ∀ (L : List (Str × Option Origin)) (pre : Str) (q : Nat × Nat),
    SegAt name pre q L → (marked L).map Prod.snd =
      (countedPlaces q (L.map Prod.fst)).map (Option.map fun p => (⟨name, p.1, p.2, none⟩ : Origin))
  | [], _, _, _ => rfl
  | (s, o) :: L, pre, q, ⟨h1, h2, h3, h4, h5⟩ => by
    have ih := segAt_places name L (pre ++ s) _ h5
    have e : marked ((s, o) :: L) = s.map (fun c => (c, o)) ++ marked L := by simp [marked]
    rw [e, List.map_append, ih, List.map_cons, countedPlaces, List.map_append, List.map_map, List.map_map]
    congr 1
    apply List.map_congr_left
    intro c _
    simp only [Function.comp_apply]
    rw [h4]
    by_cases hw : isBlank s = true
    · rw [if_pos hw, if_pos (blank_iff.1 hw)]; rfl
    · rw [if_neg hw, if_neg (fun h => hw (blank_iff.2 h))]; rfl

/-- The same where every segment is attributed to its own place. -/
theorem segOk_starts (name : Int) : ∀ (L : List (Str × Option Origin)) (pre : Str),
    SegOk name pre L → (marked L).map Prod.snd =
      (startPlaces (posAfter pre) (L.map Prod.fst)).map (Option.map fun p => (⟨name, p.1, p.2, none⟩ : Origin))
  | [], _, _ => rfl
  | (s, o) :: L, pre, ⟨h1, h2, h3, h4, h5⟩ => by
    have ih := segOk_starts name L (pre ++ s) h5
    have e : marked ((s, o) :: L) = s.map (fun c => (c, o)) ++ marked L := by simp [marked]
    rw [e, List.map_append, ih, List.map_cons, startPlaces, List.map_append, List.map_map, List.map_map, posAfter,
      posFrom_append]
    congr 1
    apply List.map_congr_left
    intro c _
    simp only [Function.comp_apply]
    rw [h4]
    by_cases hw : isBlank s = true
    · rw [if_pos hw, if_pos (blank_iff.1 hw)]; rfl
    · rw [if_neg hw, if_neg (fun h => hw (blank_iff.2 h))]; rfl

theorem marked_fst (L : List (Str × Option Origin)) : (marked L).map Prod.fst = leavesText L := by
  simp [marked, leavesText, Function.comp_def, List.flatMap]

/-- The origins in the column tree of an `OriginalSource`. -/
theorem original_counted (v : Str) (name idx : Int) :
    (originalNode true v name idx).marks.map Prod.snd =
      (countedPlaces (1, 0) (segments v)).map (Option.map fun p => (⟨name, p.1, p.2, none⟩ : Origin)) := by
  have hL := segAt_lines name v [] 1 (.inl rfl)
  have ht : leavesText (linesLeaves true name 1 (splitKeep '\n' v)) = v := by
    rw [(linesLeaves_spec true name _ 1).1, splitKeep_flatten]
  have hs := (segAt_segments name _ _ _ hL).1
  rw [ht] at hs
  rw [SmNode.marks, originalNode_leaves, segAt_places name _ _ _ hL, hs]

/-- What is counted is the place itself if every character is one byte and carriage returns stand at ends
of lines. -/
theorem countedPlaces_own {v : Str} (hasc : ∀ c ∈ v, c.utf8Size = 1) (hret : ReturnsAtEnd v) :
    countedPlaces (1, 0) (segments v) = startPlaces (1, 0) (segments v) := by
  have hL := segAt_lines 0 v [] 1 (.inl rfl)
  have ht : leavesText (linesLeaves true 0 1 (splitKeep '\n' v)) = v := by
    rw [(linesLeaves_spec true 0 _ 1).1, splitKeep_flatten]
  have hs := (segAt_segments 0 _ _ _ hL).1
  rw [ht] at hs
  have h1 := segAt_places 0 _ _ _ hL
  have h2 := segOk_starts 0 _ _ (segOk_lines 0 v [] 1 hret hasc (.inl rfl) rfl)
  rw [← hs] at h1 h2
  rw [h1] at h2
  have inj : ∀ {a b : List (Option (Nat × Nat))},
      a.map (Option.map fun p => (⟨0, p.1, p.2, none⟩ : Origin)) =
        b.map (Option.map fun p => (⟨0, p.1, p.2, none⟩ : Origin)) → a = b := by
    intro a b h
    have := congrArg (List.map (Option.map fun o : Origin => (o.line, o.col))) h
    simpa [List.map_map, Function.comp_def, Option.map_map] using this
  exact inj h2

theorem segAt_leafOk (name : Int) : ∀ (L : List (Str × Option Origin)) (pre : Str) (q : Nat × Nat),
    SegAt name pre q L → 1 ≤ q.1 → q.1 + (leavesText L).count '\n' ≤ 4294967296 → ∀ l ∈ L, LeafOk l
  | [], _, _, _, _, _, l, hl => by cases hl
  | (s, o) :: L, pre, q, ⟨h1, h2, h3, h4, h5⟩, hq, hc, l, hl => by
    have ht : leavesText ((s, o) :: L) = s ++ leavesText L := by simp [leavesText]
    rw [ht, List.count_append] at hc
    rcases List.mem_cons.1 hl with rfl | hl
    · intro o' ho
      dsimp only at ho
      rw [h4] at ho
      split at ho
      · cases ho
      · cases ho
        exact ⟨h1, hq, by show q.1 ≤ _; omega⟩
    · have hn : q.1 ≤ (counted q s).1 ∧ (counted q s).1 ≤ q.1 + s.count '\n' := by
        by_cases hm : '\n' ∈ s
        · rw [counted_nl hm]
          have : 0 < s.count '\n' := List.count_pos_iff.2 hm
          exact ⟨by simp, by show q.1 + 1 ≤ _; omega⟩
        · rw [counted_line hm]
          split <;> exact ⟨by simp, by simp⟩
      exact segAt_leafOk name L (pre ++ s) _ h5 (by omega) (by omega) l hl

/-- C26, what the column-level map of an `OriginalSource` says for every text (of fewer than 2^32 lines):
every character is looked up as the place counted at the start of its segment — the line, and the number
of bytes of the segments before it in the line that are not just white space —, and a character of a
segment of nothing but white space as no place. By `countedPlaces_own` this is the place where the segment
starts if the characters are of one byte and carriage returns stand at ends of lines. -/
theorem C26_exact (v : Str) (name idx : Int) (file : Option Int) (root : Option Str)
    (hlines : v.count '\n' < 4294967296) :
    ∃ r ps, (originalNode true v name idx).toStringWithSourceMap file root = .ok r ∧
      mapPoints r.map = some ps ∧ (countedPlaces (1, 0) (segments v)).length = v.length ∧
      ∀ (j : Nat) (q : Option (Nat × Nat)), (countedPlaces (1, 0) (segments v))[j]? = some q →
        lookup ps (posAfter (v.take j)).1 (posAfter (v.take j)).2 = q.map fun p => ⟨name, p.1, p.2, none⟩ := by
  have hleaves := originalNode_leaves true v name idx
  have hseg := segAt_lines name v [] 1 (.inl rfl)
  rw [← hleaves] at hseg
  have htext : leavesText (originalNode true v name idx).leaves = v := by
    rw [hleaves, (linesLeaves_spec ..).1, splitKeep_flatten]
  have hok := segAt_leafOk name _ [] _ hseg (Nat.le_refl _) (by rw [htext]; show 1 + _ ≤ _; omega)
  obtain ⟨r, ps, e1, e2, hattr, _, _⟩ := C09_attribution_partial (originalNode true v name idx) file root hok
  have hm := original_counted v name idx
  have hf : (originalNode true v name idx).marks.map Prod.fst = v := by rw [SmNode.marks_text]; exact htext
  refine ⟨r, ps, e1, e2, ?_, ?_⟩
  · have h1 := congrArg List.length hm
    have h2 := congrArg List.length hf
    simp only [List.length_map] at h1 h2
    omega
  · intro j q hq
    have h1 := congrArg (fun l => l[j]?) hm
    simp only [List.getElem?_map, hq, Option.map_some] at h1
    obtain ⟨⟨c, o⟩, g1, g2⟩ := Option.map_eq_some_iff.1 h1
    have := hattr j c o g1
    rw [List.map_take, hf] at this
    rw [this]
    exact g2

/-- Points of the map of an `OriginalSource`. -/
def originalPoints (v : Str) : Option (List Point) :=
  ((originalNode true v 1 2).toStringWithSourceMap none none).toOption.bind fun r => mapPoints r.map

/-- C26 fails in general: blank segments do not advance the column (`src/original_source.rs:60-71`), and
the column counts bytes while generated columns count characters. -/
theorem C26_not_general :
    originalPoints "  \rfoo".toList = some [⟨1, 3, some ⟨1, 1, 0, none⟩⟩] ∧
    originalPoints "é;b".toList = some [⟨1, 0, some ⟨1, 1, 0, none⟩⟩, ⟨1, 2, some ⟨1, 1, 3, none⟩⟩] := by
  decide +kernel

/-- What is counted in these texts: the second place is not where `foo`, and where `b`, starts. -/
example : countedPlaces (1, 0) (segments "  \rfoo".toList) =
      [none, none, none, some (1, 0), some (1, 0), some (1, 0)] ∧
    countedPlaces (1, 0) (segments "é;b".toList) = [some (1, 0), some (1, 0), some (1, 3)] ∧
    startPlaces (1, 0) (segments "é;b".toList) = [some (1, 0), some (1, 0), some (1, 2)] := by decide +kernel

/-! Non-trivial case. -/

example : originalPoints "  if (a) { b;\r\n}\n\n c;d".toList =
    some [⟨1, 0, some ⟨1, 1, 0, none⟩⟩, ⟨1, 10, some ⟨1, 1, 10, none⟩⟩, ⟨2, 0, some ⟨1, 2, 0, none⟩⟩,
      ⟨4, 0, some ⟨1, 4, 0, none⟩⟩, ⟨4, 3, some ⟨1, 4, 3, none⟩⟩] := by decide +kernel
example : (∀ c ∈ "  if (a) { b;\r\n}\n\n c;d".toList, c.utf8Size = 1) := by decide +kernel
/-- A check for `ReturnsAtEnd`. -/
def returnsOk : Str → Bool
  | [] => true
  | [_] => true
  | a :: c :: r => (a != '\r' || c == '\r' || c == '\n') && returnsOk (c :: r)

theorem returnsOk_sound : ∀ (a : Str) {v b : Str} {c : Char}, returnsOk v = true →
    v = a ++ '\r' :: c :: b → c = '\r' ∨ c = '\n'
  | [], v, b, c, h, e => by
    subst e
    simp [returnsOk] at h
    exact h.1
  | x :: a, v, b, c, h, e => by
    subst e
    refine returnsOk_sound a (v := a ++ '\r' :: c :: b) ?_ rfl
    cases a with
    | nil => simp only [List.nil_append, List.cons_append, returnsOk, Bool.and_eq_true] at h ⊢; exact h.2
    | cons y a => simp only [List.cons_append, returnsOk, Bool.and_eq_true] at h ⊢; exact h.2

example : ReturnsAtEnd "  if (a) { b;\r\n}\n\n c;d".toList :=
  fun a _ _ e => returnsOk_sound a (by decide +kernel) e
example : SegmentStart "  if (a) { b;\r\n}\n\n c;d".toList 10 := .inr (.inr ⟨'{', ' ', by decide +kernel⟩)

end WS
