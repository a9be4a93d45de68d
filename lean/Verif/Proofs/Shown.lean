import Verif.Proofs.Render
/-! # What the points of pieces say of every character -/

namespace WS
open Spec

/-- `AttributesB`, character by character. -/
def HoldsB (ps : List Point) : Nat × Nat → LineMarked → Prop
  | _, [] => True
  | p, (c, o) :: r => lookup ps p.1 p.2 = o.map (fun x => ⟨x.1, x.2, 0, none⟩) ∧ HoldsB ps (advanceB p c) r

theorem HoldsB.attributes {ps : List Point} : ∀ {m : LineMarked} {p : Nat × Nat},
    HoldsB ps p m → AttributesB ps p m
  | [], _, _ => by intro k c o h; simp at h
  | (c, o) :: m, p, h => by
    intro k c' o' hk
    cases k with
    | zero =>
      simp only [List.getElem?_cons_zero, Option.some.injEq, Prod.mk.injEq] at hk
      obtain ⟨rfl, rfl⟩ := hk
      exact h.1
    | succ k =>
      rw [List.getElem?_cons_succ] at hk
      exact HoldsB.attributes h.2 k c' o' hk

theorem HoldsB.append {ps : List Point} : ∀ {m m' : LineMarked} {p : Nat × Nat},
    HoldsB ps p m → HoldsB ps (posFromB p (m.map Prod.fst)) m' → HoldsB ps p (m ++ m')
  | [], _, _, _, h => h
  | _ :: _, _, _, h, h' => ⟨h.1, HoldsB.append h.2 h'⟩

/-- Order of positions. -/
def LeB (p q : Nat × Nat) : Prop := p.1 < q.1 ∨ (p.1 = q.1 ∧ p.2 ≤ q.2)

theorem LeB.refl (p : Nat × Nat) : LeB p p := .inr ⟨rfl, Nat.le_refl _⟩

theorem LeB.trans {p q r : Nat × Nat} (h1 : LeB p q) (h2 : LeB q r) : LeB p r := by
  unfold LeB at *; omega

theorem advanceB_le (p : Nat × Nat) (c : Char) : LeB p (advanceB p c) := by
  unfold advanceB LeB; split <;> simp

theorem posFromB_le : ∀ (s : Str) (p : Nat × Nat), LeB p (posFromB p s)
  | [], p => LeB.refl p
  | c :: s, p => (advanceB_le p c).trans (posFromB_le s (advanceB p c))

/-- A character takes room. -/
theorem advanceB_lt (p : Nat × Nat) (c : Char) :
    p.1 < (advanceB p c).1 ∨ (p.1 = (advanceB p c).1 ∧ p.2 < (advanceB p c).2) := by
  unfold advanceB
  have := Char.utf8Size_pos c
  split <;> simp <;> omega

/-- The position of a point. -/
def _root_.WS.Spec.Point.at (x : Point) : Nat × Nat := (x.line, x.col)

theorem pointAt_append (A B : List Point) (l c : Nat) :
    pointAt (A ++ B) l c = match pointAt B l c with | some q => some q | none => pointAt A l c := by
  induction A with
  | nil => simp [pointAt]; cases pointAt B l c <;> rfl
  | cons a A ih =>
    rw [List.cons_append, pointAt, ih, pointAt]
    cases pointAt B l c <;> rfl

theorem pointAt_none {B : List Point} {l c : Nat} (h : ∀ x ∈ B, ¬ (x.line = l ∧ x.col ≤ c)) :
    pointAt B l c = none := by
  induction B with
  | nil => rfl
  | cons b B ih =>
    rw [pointAt, ih (fun x hx => h x (by simp [hx]))]
    simp only
    rw [if_neg (h b (by simp))]

/-- Points further on do not matter. -/
theorem lookup_append_right {A B : List Point} {l c : Nat} (h : ∀ x ∈ B, ¬ (x.line = l ∧ x.col ≤ c)) :
    lookup (A ++ B) l c = lookup A l c := by
  unfold lookup
  rw [pointAt_append, pointAt_none h]

theorem lookup_concat (A : List Point) (x : Point) (l c : Nat) :
    lookup (A ++ [x]) l c = if x.line = l ∧ x.col ≤ c then x.origin else lookup A l c := by
  unfold lookup
  rw [pointAt_append, pointAt, pointAt]
  by_cases h : x.line = l ∧ x.col ≤ c
  · rw [if_pos h]; simp [h]
  · simp [h]

/-- Points behind the text do not matter. -/
theorem HoldsB.more {ps qs : List Point} : ∀ {m : LineMarked} {p : Nat × Nat}, HoldsB ps p m →
    (∀ x ∈ qs, LeB (posFromB p (m.map Prod.fst)) x.at) → HoldsB (ps ++ qs) p m
  | [], _, _, _ => trivial
  | (c, o) :: m, p, h, hq => by
    refine ⟨?_, HoldsB.more h.2 hq⟩
    rw [lookup_append_right, h.1]
    intro x hx ⟨h1, h2⟩
    have h3 := (posFromB_le (m.map Prod.fst) (advanceB p c)).trans (hq x hx)
    have h4 := advanceB_lt p c
    unfold LeB at h3
    simp only [Point.at] at h3
    omega

/-- The state of the reader at `p`: what the rest of the line is attributed to as yet. -/
structure Known (P : List Point) (p : Nat × Nat) (cur : Option (Int × Nat)) : Prop where
  here : ∀ c, p.2 ≤ c → lookup P p.1 c = cur.map fun x => ⟨x.1, x.2, 0, none⟩
  below : ∀ x ∈ P, x.line ≤ p.1
  fresh : p.2 = 0 → cur = none

/-- What the rest of the line is attributed to after a text. -/
def endCur : Option (Int × Nat) → LineMarked → Option (Int × Nat)
  | cur, [] => cur
  | cur, (c, o) :: rest =>
    endCur (if c = '\n' then none else o.or cur) rest

theorem shown_append : ∀ (a b : LineMarked) (cur : Option (Int × Nat)),
    shown cur (a ++ b) = shown cur a ++ shown (endCur cur a) b
  | [], _, _ => rfl
  | (c, o) :: a, b, cur => by
    simp only [List.cons_append, shown, endCur]
    rw [shown_append a b]

theorem shown_fst : ∀ (a : LineMarked) (cur : Option (Int × Nat)), (shown cur a).map Prod.fst = a.map Prod.fst
  | [], _ => rfl
  | (c, o) :: a, cur => by simp only [shown, List.map_cons]; rw [shown_fst a]

theorem linesMarks_fst (src : Int) (step : Nat) : ∀ (t : Str) (n : Nat),
    (linesMarks src step n t).map Prod.fst = t
  | [], _ => rfl
  | c :: t, n => by simp only [linesMarks, List.map_cons]; rw [linesMarks_fst src step t]

theorem Piece.marks_fst (x : Piece) : x.marks.map Prod.fst = x.text := by
  cases x with
  | plain t => simp [Piece.marks, Piece.text, Function.comp_def]
  | lines t s n => exact linesMarks_fst _ _ _ _
  | single t s n => exact linesMarks_fst _ _ _ _

theorem piecesMarks_fst (xs : List Piece) : (piecesMarks xs).map Prod.fst = piecesText xs := by
  simp [piecesMarks, piecesText, List.map_flatten, Function.comp_def, Piece.marks_fst]

theorem furtherLines_ge (src : Int) (step : Nat) : ∀ (t : Str) (l n : Nat),
    ∀ x ∈ furtherLines src step l n t, l < x.line
  | [], _, _, x, hx => by cases hx
  | c :: t, l, n, x, hx => by
    rw [furtherLines] at hx
    split at hx
    · split at hx
      · cases hx
      · rcases List.mem_cons.1 hx with rfl | hx
        · exact Nat.lt_succ_self l
        · have := furtherLines_ge src step t _ _ x hx; omega
    · exact furtherLines_ge src step t _ _ x hx

/-- The reader inside a mapped text. -/
structure Inside' (P : List Point) (p : Nat × Nat) (src : Int) (n : Nat) : Prop where
  here : ∀ c, p.2 ≤ c → lookup P p.1 c = some ⟨src, n, 0, none⟩
  below : ∀ x ∈ P, x.line ≤ p.1

theorem mapped_holds (src : Int) (step : Nat) : ∀ (t : Str) (P : List Point) (p : Nat × Nat) (n : Nat)
    (cur : Option (Int × Nat)), t ≠ [] → Inside' P p src n →
    HoldsB (P ++ furtherLines src step p.1 n t) p (shown cur (linesMarks src step n t)) ∧
    Known (P ++ furtherLines src step p.1 n t) (posFromB p t) (endCur cur (linesMarks src step n t))
  | [], _, _, _, _, h, _ => absurd rfl h
  | c :: t, P, p, n, cur, _, hin => by
    by_cases hc : c = '\n'
    · subst hc
      have hadv : advanceB p '\n' = (p.1 + 1, 0) := by simp [advanceB]
      have hpos : posFromB p ('\n' :: t) = posFromB (p.1 + 1, 0) t := by
        show posFromB (advanceB p '\n') t = _
        rw [hadv]
      by_cases ht : t = []
      · subst ht
        simp only [furtherLines, if_pos, List.append_nil, linesMarks, shown, endCur, HoldsB, and_true]
        refine ⟨by simpa using hin.here p.2 (Nat.le_refl _), ?_⟩
        rw [hpos]
        refine ⟨fun c _ => ?_, fun x hx => ?_, fun _ => rfl⟩
        · unfold lookup
          rw [pointAt_none]
          · rfl
          · intro x hx ⟨h1, _⟩
            have := hin.below x hx
            simp only [posFromB, List.foldl_nil] at h1
            omega
        · have := hin.below x hx
          simp only [posFromB, List.foldl_nil]
          omega
      · have hfl : furtherLines src step p.1 n ('\n' :: t) =
            ⟨p.1 + 1, 0, some ⟨src, n + step, 0, none⟩⟩ :: furtherLines src step (p.1 + 1) (n + step) t := by
          rw [furtherLines, if_pos rfl, if_neg ht]
        have hin' : Inside' (P ++ [⟨p.1 + 1, 0, some ⟨src, n + step, 0, none⟩⟩]) (p.1 + 1, 0) src (n + step) := by
          refine ⟨fun c _ => ?_, fun x hx => ?_⟩
          · rw [lookup_concat, if_pos ⟨rfl, Nat.zero_le _⟩]
          · rcases List.mem_append.1 hx with hx | hx
            · have := hin.below x hx; simp only; omega
            · rw [List.mem_singleton.1 hx]; exact Nat.le_refl _
        obtain ⟨h1, h2⟩ := mapped_holds src step t _ (p.1 + 1, 0) (n + step) none ht hin'
        rw [hfl]
        rw [List.append_assoc, List.singleton_append] at h1 h2
        refine ⟨⟨?_, ?_⟩, ?_⟩
        · rw [lookup_append_right, hin.here _ (Nat.le_refl _)]
          · rfl
          · intro x hx ⟨e1, _⟩
            rcases List.mem_cons.1 hx with rfl | hx
            · simp only at e1; omega
            · have := furtherLines_ge src step t _ _ x hx; omega
        · rw [hadv]
          simpa only [linesMarks, if_pos] using h1
        · rw [hpos]
          simpa only [linesMarks, endCur, if_pos] using h2
    · have hadv : advanceB p c = (p.1, p.2 + c.utf8Size) := by simp [advanceB, hc]
      have hpos : posFromB p (c :: t) = posFromB (p.1, p.2 + c.utf8Size) t := by
        show posFromB (advanceB p c) t = _
        rw [hadv]
      have hfl : furtherLines src step p.1 n (c :: t) = furtherLines src step p.1 n t := by
        rw [furtherLines, if_neg hc]
      have hin' : Inside' P (p.1, p.2 + c.utf8Size) src n :=
        ⟨fun d hd => hin.here d (by simp only at hd; omega), hin.below⟩
      rw [hfl]
      have hhead : lookup (P ++ furtherLines src step p.1 n t) p.1 p.2 = some ⟨src, n, 0, none⟩ := by
        rw [lookup_append_right, hin.here _ (Nat.le_refl _)]
        intro x hx ⟨e1, _⟩
        have := furtherLines_ge src step t _ _ x hx
        omega
      by_cases ht : t = []
      · subst ht
        simp only [furtherLines, List.append_nil, linesMarks, shown, endCur, HoldsB, and_true, if_neg hc]
          at hhead ⊢
        refine ⟨hhead, ?_⟩
        rw [hpos]
        refine ⟨fun d hd => hin'.here d hd, hin'.below, fun h => ?_⟩
        have := Char.utf8Size_pos c
        simp only [posFromB, List.foldl_nil] at h
        omega
      · obtain ⟨h1, h2⟩ := mapped_holds src step t P (p.1, p.2 + c.utf8Size) n (some (src, n)) ht hin'
        refine ⟨⟨hhead, ?_⟩, ?_⟩
        · rw [hadv]
          simpa only [linesMarks, if_neg hc, Option.some_or] using h1
        · rw [hpos]
          simpa only [linesMarks, endCur, if_neg hc, Option.some_or] using h2

theorem plain_shown : ∀ (t : Str) (P : List Point) (p : Nat × Nat) (cur : Option (Int × Nat)),
    (∀ c, p.2 ≤ c → lookup P p.1 c = cur.map fun x => ⟨x.1, x.2, 0, none⟩) →
    (∀ l c, p.1 < l → lookup P l c = none) →
    HoldsB P p (shown cur (t.map fun c => (c, none)))
  | [], _, _, _, _, _ => trivial
  | c :: t, P, p, cur, h1, h2 => by
    refine ⟨h1 _ (Nat.le_refl _), ?_⟩
    by_cases hc : c = '\n'
    · subst hc
      simp only [if_pos]
      refine plain_shown t P _ none (fun d _ => ?_) (fun l d hl => ?_)
      · simp [advanceB]; exact h2 _ _ (Nat.lt_succ_self _)
      · simp [advanceB] at hl
        exact h2 _ _ (by omega)
    · simp only [if_neg hc]
      refine plain_shown t P _ cur (fun d hd => ?_) (fun l d hl => ?_)
      · simp [advanceB, hc] at hd ⊢; exact h1 _ (by omega)
      · simp [advanceB, hc] at hl; exact h2 _ _ hl

theorem endCur_plain : ∀ (t : Str) (cur : Option (Int × Nat)),
    endCur cur (t.map fun c => (c, none)) = if '\n' ∈ t then none else cur
  | [], cur => by simp [endCur]
  | c :: t, cur => by
    simp only [List.map_cons, endCur, endCur_plain t]
    by_cases hc : c = '\n'
    · simp [hc]
    · simp only [if_neg hc, List.mem_cons, Ne.symm hc, false_or, Option.none_or]

theorem endCur_append : ∀ (a b : LineMarked) (cur : Option (Int × Nat)),
    endCur cur (a ++ b) = endCur (endCur cur a) b
  | [], _, _ => rfl
  | (c, o) :: a, b, cur => by simp only [List.cons_append, endCur]; rw [endCur_append a b]

theorem plain_holds (t : Str) {P : List Point} {p : Nat × Nat} {cur : Option (Int × Nat)}
    (hk : Known P p cur) :
    HoldsB (P ++ plainLines p t) p (shown cur (t.map fun c => (c, none))) ∧
    Known (P ++ plainLines p t) (posFromB p t) (endCur cur (t.map fun c => (c, none))) := by
  have habove : ∀ l c, p.1 < l → lookup P l c = none := by
    intro l c hl
    unfold lookup
    rw [pointAt_none]
    · rfl
    · intro x hx ⟨h1, _⟩
      have := hk.below x hx
      omega
  have hle := posFromB_le t p
  have hposn := posFromB_eq t p
  rw [endCur_plain]
  have hpt : ∀ x ∈ plainLines p t, x.line = (posFromB p t).1 ∧ x.origin = none ∧ x.col = 0 ∧ (p.2 = 0 ∨ '\n' ∈ t) := by
    unfold plainLines
    intro x hx
    split at hx
    · rename_i h
      rw [List.mem_singleton.1 hx]
      exact ⟨rfl, rfl, rfl, h.1⟩
    · cases hx
  have hlook : ∀ l c, (l = p.1 → p.2 ≤ c) → p.1 ≤ l → lookup (P ++ plainLines p t) l c = lookup P l c := by
    intro l c hlc hl
    unfold plainLines
    split
    · rename_i h
      rw [lookup_concat]
      split
      · rename_i hx
        simp only at hx ⊢
        rcases Nat.lt_or_ge p.1 l with hlt | hge
        · exact (habove l c hlt).symm
        · have hl' : l = p.1 := by omega
          subst hl'
          rw [hk.here _ (hlc rfl)]
          rcases h.1 with h0 | hmem
          · rw [hk.fresh h0]; rfl
          · have : numberOfLines t ≠ 0 := fun h0 => numberOfLines_zero.1 h0 hmem
            rw [hposn] at hx
            simp only at hx
            omega
      · rfl
    · simp
  refine ⟨plain_shown t _ p cur (fun c hc => ?_) (fun l c hl => ?_), ?_, ?_, ?_⟩
  · rw [hlook _ _ (fun _ => hc) (Nat.le_refl _), hk.here _ hc]
  · rw [hlook _ _ (fun h => by omega) (by omega), habove _ _ hl]
  · intro c hc
    rw [hposn] at hc ⊢
    simp only at hc ⊢
    by_cases hmem : '\n' ∈ t
    · rw [if_pos hmem] at hc ⊢
      have : numberOfLines t ≠ 0 := fun h0 => numberOfLines_zero.1 h0 hmem
      rw [hlook _ _ (fun h => by omega) (by omega), habove _ _ (by omega)]
      rfl
    · rw [if_neg hmem] at hc ⊢
      have h0 := numberOfLines_zero.2 hmem
      rw [h0, Nat.add_zero, hlook _ _ (fun _ => by omega) (Nat.le_refl _), hk.here _ (by omega)]
  · intro x hx
    rcases List.mem_append.1 hx with hx | hx
    · have := hk.below x hx
      unfold LeB at hle
      omega
    · exact Nat.le_of_eq (hpt x hx).1
  · intro h
    by_cases hmem : '\n' ∈ t
    · rw [if_pos hmem]
    · rw [if_neg hmem]
      rw [hposn, if_neg hmem] at h
      simp only at h
      exact hk.fresh (by omega)

theorem piece_ge (x : Piece) (p : Nat × Nat) : ∀ y ∈ x.points p, LeB p y.at := by
  have mapped : ∀ src step n t, ∀ y ∈ mappedLines src step n p t, LeB p y.at := by
    intro src step n t y hy
    unfold mappedLines at hy
    split at hy
    · cases hy
    · rcases List.mem_cons.1 hy with rfl | hy
      · exact LeB.refl _
      · exact .inl (furtherLines_ge _ _ _ _ _ y hy)
  cases x with
  | plain t =>
    intro y hy
    simp only [Piece.points, plainLines] at hy
    split at hy
    · rename_i h
      rw [List.mem_singleton.1 hy]
      have hle := posFromB_le t p
      have hposn := posFromB_eq t p
      rcases h.1 with h0 | hmem
      · unfold LeB Point.at at *
        simp only
        omega
      · have : numberOfLines t ≠ 0 := fun h0 => numberOfLines_zero.1 h0 hmem
        rw [hposn]
        exact .inl (by simp only [Point.at]; omega)
    · cases hy
  | lines t s n => exact mapped _ _ _ _
  | single t s n => exact mapped _ _ _ _

theorem pieces_ge : ∀ (xs : List Piece) (p : Nat × Nat), ∀ y ∈ piecesPoints p xs, LeB p y.at
  | [], _, y, hy => by cases hy
  | x :: xs, p, y, hy => by
    rcases List.mem_append.1 hy with hy | hy
    · exact piece_ge x p y hy
    · exact (posFromB_le _ _).trans (pieces_ge xs _ y hy)

theorem piece_holds (x : Piece) {P : List Point} {p : Nat × Nat} {cur : Option (Int × Nat)}
    (hk : Known P p cur) :
    HoldsB (P ++ x.points p) p (shown cur x.marks) ∧
    Known (P ++ x.points p) (posFromB p x.text) (endCur cur x.marks) := by
  have mapped : ∀ src step n t, HoldsB (P ++ mappedLines src step n p t) p (shown cur (linesMarks src step n t)) ∧
      Known (P ++ mappedLines src step n p t) (posFromB p t) (endCur cur (linesMarks src step n t)) := by
    intro src step n t
    unfold mappedLines
    by_cases ht : t = []
    · subst ht
      rw [if_pos rfl, List.append_nil]
      exact ⟨trivial, hk⟩
    · rw [if_neg ht]
      have hin : Inside' (P ++ [⟨p.1, p.2, some ⟨src, n, 0, none⟩⟩]) p src n := by
        refine ⟨fun c hc => ?_, fun x hx => ?_⟩
        · rw [lookup_concat, if_pos ⟨rfl, hc⟩]
        · rcases List.mem_append.1 hx with hx | hx
          · exact hk.below x hx
          · rw [List.mem_singleton.1 hx]; exact Nat.le_refl _
      have := mapped_holds src step t _ p n cur ht hin
      rw [List.append_assoc, List.singleton_append] at this
      exact this
  cases x with
  | plain t => exact plain_holds t hk
  | lines t s n => exact mapped _ _ _ _
  | single t s n => exact mapped _ _ _ _

theorem pieces_hold : ∀ (xs : List Piece) (P : List Point) (p : Nat × Nat) (cur : Option (Int × Nat)),
    Known P p cur → HoldsB (P ++ piecesPoints p xs) p (shown cur (piecesMarks xs))
  | [], _, _, _, _ => trivial
  | x :: xs, P, p, cur, hk => by
    obtain ⟨h1, h2⟩ := piece_holds x hk
    have ih := pieces_hold xs _ _ _ h2
    have e : piecesMarks (x :: xs) = x.marks ++ piecesMarks xs := by simp [piecesMarks]
    rw [e, shown_append, piecesPoints, ← List.append_assoc]
    refine HoldsB.append (HoldsB.more h1 ?_) ?_
    · rw [shown_fst, Piece.marks_fst]
      exact pieces_ge xs _
    · rw [shown_fst, Piece.marks_fst]
      exact ih

/-- The points of pieces attribute every character to what the piece says of it, unmapped characters to
what is before them on their line. -/
theorem pieces_attributed (xs : List Piece) :
    AttributesB (piecesPoints (1, 0) xs) (1, 0) (shown none (piecesMarks xs)) := by
  have := pieces_hold xs [] (1, 0) none ⟨fun _ _ => rfl, by simp, fun _ => rfl⟩
  exact this.attributes

end WS
