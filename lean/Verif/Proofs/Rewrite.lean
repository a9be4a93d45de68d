import Verif.Proofs.LineWise
import Verif.Props.C41
/-! # What rewriting a list map does to the origin of every character -/

namespace WS
open Spec

/-- A line-level attribution with gaps: of some characters nothing is said. -/
abbrev Spec.Sketch := List (Char × Option (Option (Int × Nat)))

/-- An attribution that says what the sketch says. -/
def Spec.Agrees : Sketch → LineMarked → Prop
  | [], [] => True
  | (c, q) :: s, (d, o) :: m => c = d ∧ (∀ o', q = some o' → o = o') ∧ Agrees s m
  | _, _ => False

/-- The sketch without gaps. -/
def Spec.sketch (m : LineMarked) : Sketch := m.map fun k => (k.1, some k.2)

theorem agrees_sketch : ∀ {m n : LineMarked}, Agrees (sketch m) n → n = m
  | [], [], _ => rfl
  | [], _ :: _, h => h.elim
  | _ :: _, [], h => h.elim
  | (c, o) :: m, (d, p) :: n, h => by
    obtain ⟨h1, h2, h3⟩ := h
    rw [agrees_sketch (m := m) h3, h2 o rfl, ← h1]

theorem Spec.Agrees.append : ∀ {s t : Sketch} {m n : LineMarked}, Agrees s m → Agrees t n →
    Agrees (s ++ t) (m ++ n)
  | [], _, [], _, _, h => h
  | [], _, _ :: _, _, h, _ => h.elim
  | _ :: _, _, [], _, h, _ => h.elim
  | _ :: _, _, _ :: _, _, ⟨h1, h2, h3⟩, h => ⟨h1, h2, Spec.Agrees.append h3 h⟩

theorem agrees_none : ∀ {s : Sketch} {m : LineMarked}, s.map Prod.fst = m.map Prod.fst →
    (∀ k ∈ s, k.2 = none) → Agrees s m
  | [], [], _, _ => trivial
  | [], _ :: _, h, _ => by cases h
  | _ :: _, [], h, _ => by cases h
  | (c, q) :: s, (d, o) :: m, h, hn => by
    simp only [List.map_cons, List.cons.injEq] at h
    refine ⟨h.1, ?_, agrees_none h.2 (fun k hk => hn k (by simp [hk]))⟩
    intro o' ho
    have := hn (c, q) (by simp)
    rw [ho] at this; cases this

/-- Nothing is said of characters after a newline. -/
def LateFree (s : Sketch) : Prop := ∀ x e y, s = x ++ ('\n', e) :: y → ∀ k ∈ y, k.2 = none

theorem LateFree.tail {a : Char × Option (Option (Int × Nat))} {s : Sketch} (h : LateFree (a :: s)) : LateFree s :=
  fun x e y hs => h (a :: x) e y (by rw [hs]; rfl)

/-- Whichever way lines are counted, text is attributed to the line it begins with up to its first
newline. -/
theorem linesMarks_agrees (src : Int) (step n : Nat) : ∀ (s : Sketch), LateFree s →
    (∀ k ∈ s, k.2 = none ∨ k.2 = some (some (src, n))) → Agrees s (linesMarks src step n (s.map Prod.fst))
  | [], _, _ => trivial
  | (c, q) :: s, hl, hc => by
    rw [List.map_cons, linesMarks]
    refine ⟨rfl, ?_, ?_⟩
    · intro o' ho
      rcases hc (c, q) (by simp) with h | h
      · rw [ho] at h; cases h
      · rw [ho] at h; cases h; rfl
    · by_cases hn : c = '\n'
      · subst hn
        exact agrees_none (by rw [linesMarks_fst]) (hl [] q s rfl)
      · rw [if_neg hn]
        exact linesMarks_agrees src step n s hl.tail (fun k hk => hc k (by simp [hk]))

theorem linesMarks_zero (src : Int) (n : Nat) : ∀ t : Str,
    linesMarks src 0 n t = t.map fun c => (c, some (src, n))
  | [] => rfl
  | c :: t => by rw [linesMarks, Nat.add_zero, ite_self, linesMarks_zero src n t]; rfl

/-- A node that says of the text what the sketch says, also after merging. -/
def Drawn (q : Sketch) : LNode → Prop
  | .code s => q.map Prod.fst = s ∧ ∀ k ∈ q, k.2 = none ∨ k.2 = some none
  | .single n => q.map Prod.fst = n.code ∧ n.numLines = n.code.count '\n' ∧
      (n.endsNl = true → n.code.getLast? = some '\n') ∧ LateFree q ∧
      ∀ k ∈ q, k.2 = none ∨ k.2 = some (some (n.source.getD (-1), n.line))
  | _ => False

theorem agrees_plain : ∀ (q : Sketch), (∀ k ∈ q, k.2 = none ∨ k.2 = some none) →
    Agrees q ((q.map Prod.fst).map fun c => (c, none))
  | [], _ => trivial
  | (c, o) :: q, h => by
    refine ⟨rfl, ?_, agrees_plain q (fun k hk => h k (by simp [hk]))⟩
    intro o' ho
    rcases h (c, o) (by simp) with h | h <;> rw [ho] at h <;> cases h
    rfl

theorem Drawn.agrees {q : Sketch} {n : LNode} (h : Drawn q n) : Agrees q n.piece.marks := by
  cases n with
  | code s => obtain ⟨rfl, h2⟩ := h; exact agrees_plain q h2
  | single n =>
    obtain ⟨h1, _, _, h4, h5⟩ := h
    simp only [LNode.piece, Piece.marks]
    rw [← h1]
    exact linesMarks_agrees _ _ _ q h4 h5
  | _ => exact h.elim

theorem Drawn.merged {q : Sketch} {n : LNode} (h : Drawn q n) : n.Merged := by
  cases n with
  | code s => trivial
  | single n => exact ⟨h.2.1, h.2.2.1⟩
  | _ => exact h.elim

/-- Merging keeps what is said of every character, as far as the sketch says anything. -/
theorem merge_drawn {a b c : LNode} {q : Sketch} (ha : a.Merged) (hb : Drawn q b) (h : a.merge b = some c) :
    c.Merged ∧ ∃ mb, c.piece.marks = a.piece.marks ++ mb ∧ Agrees q mb := by
  have hcount : ∀ x y : Str, (x ++ y).count '\n' = x.count '\n' + y.count '\n' := fun _ _ => List.count_append
  have hlast : ∀ (x : Str) {y : Str}, y.getLast? = some '\n' → (x ++ y).getLast? = some '\n' := by
    intro x y h; rw [List.getLast?_append, h]; rfl
  cases b with
  | code s =>
    cases a with
    | code t =>
      simp only [LNode.merge, Option.some.injEq] at h
      subst h
      exact ⟨trivial, _, by simp [LNode.piece, Piece.marks], hb.agrees⟩
    | _ => simp [LNode.merge] at h
  | single o =>
    obtain ⟨o0, o1, o2, o3, o4⟩ := hb
    cases a with
    | source n =>
      obtain ⟨n1, n2⟩ := ha
      simp only [LNode.merge, LSource.mergeSingle] at h
      split at h
      · rename_i hc
        obtain ⟨c1, c2, c3, c4⟩ := hc
        simp only [Option.map_some, Option.some.injEq] at h
        subst h
        refine ⟨⟨by simp only [hcount]; omega, fun he => hlast _ (o2 he)⟩, _, ?_,
          linesMarks_agrees (o.source.getD (-1)) 1 o.line q o3 o4⟩
        simp only [LNode.piece, Piece.marks, linesMarks_append, c1]
        rw [n1] at c3
        rw [Nat.mul_one, c3, o0]
      · cases h
    | single n =>
      obtain ⟨n1, n2⟩ := ha
      simp only [LNode.merge, LSingle.mergeSingle] at h
      split at h
      · rename_i hso
        split at h
        · rename_i hl
          simp only [Option.some.injEq] at h
          subst h
          refine ⟨⟨by simp only [hcount]; omega, fun he => hlast _ (o2 he)⟩, _, ?_,
            linesMarks_agrees (o.source.getD (-1)) 0 o.line q o3 o4⟩
          simp only [LNode.piece, Piece.marks, linesMarks_append, hso.1]
          rw [Nat.mul_zero, Nat.add_zero, hl, o0]
        · split at h
          · rename_i hc
            simp only [Option.some.injEq] at h
            subst h
            refine ⟨⟨rfl, fun he => (endsNl_iff _).1 he⟩, _, ?_,
              linesMarks_agrees (o.source.getD (-1)) 1 o.line q o3 o4⟩
            obtain ⟨c1, c2, c3, c4⟩ := hc
            have hl := n2 c2
            have hd : '\n' ∉ n.code.dropLast := by
              intro hmem
              have hne : n.code ≠ [] := by intro h0; rw [h0] at hl; cases hl
              have e := List.dropLast_concat_getLast hne
              rw [List.getLast?_eq_some_getLast hne] at hl
              rw [Option.some.inj hl] at e
              have h2 : 1 ≤ n.code.dropLast.count '\n' := List.count_pos_iff.2 hmem
              have h3 : n.code.count '\n' = n.code.dropLast.count '\n' + 1 := by
                conv => lhs; rw [← e]
                rw [hcount]; rfl
              omega
            simp only [LNode.piece, Piece.marks, LSource.new, linesMarks_append, hso.1]
            have hcnt : n.code.count '\n' = 1 := by omega
            rw [hcnt, Nat.one_mul, c1, linesMarks_tidy _ 1 0 _ hd, o0]
          · cases h
      · cases h
    | _ => simp [LNode.merge] at h
  | _ => exact hb.elim

theorem pushMerge_drawn {rev : List LNode} (hr : ∀ n ∈ rev, n.Merged) {n : LNode} {q : Sketch} (hn : Drawn q n) :
    (∀ k ∈ pushMerge rev (some n), k.Merged) ∧
    ∃ mb, piecesMarks ((pushMerge rev (some n)).reverse.map LNode.piece) =
      piecesMarks (rev.reverse.map LNode.piece) ++ mb ∧ Agrees q mb := by
  unfold pushMerge
  cases rev with
  | nil =>
    exact ⟨by intro k hk; rw [List.mem_singleton.1 hk]; exact hn.merged, n.piece.marks, by simp [piecesMarks], hn.agrees⟩
  | cons last rest =>
    dsimp only
    cases hm : last.merge n with
    | none =>
      refine ⟨?_, n.piece.marks, by simp [piecesMarks], hn.agrees⟩
      intro k hk
      rcases List.mem_cons.1 hk with rfl | hk
      · exact hn.merged
      · exact hr k hk
    | some m =>
      obtain ⟨h1, mb, h2, h3⟩ := merge_drawn (hr last (by simp)) hn hm
      refine ⟨?_, mb, ?_, h3⟩
      · intro k hk
        rcases List.mem_cons.1 hk with rfl | hk
        · exact h1
        · exact hr k (by simp [hk])
      · simp [piecesMarks, h2]

/-! ## Functions on sketches -/

/-- A rewriting function that carries attributions along, for states with `I`. -/
structure Lifts {σ : Type} (I : σ → Prop) (f : σ → Str → Str × σ) (F : σ → Sketch → Sketch × σ) : Prop where
  keeps : ∀ st q, I st → I (F st q).2
  text : ∀ st q, (F st q).1.map Prod.fst = (f st (q.map Prod.fst)).1
  state : ∀ st q, (F st q).2 = (f st (q.map Prod.fst)).2
  says : ∀ st q, ∀ k ∈ (F st q).1, k.2 = none ∨ ∃ e ∈ q, k.2 = e.2
  late : ∀ st q, I st → '\n' ∉ (q.map Prod.fst).dropLast → LateFree (F st q).1

/-- Apply a function with state to sketches, one after the other. -/
def runSk {σ : Type} (F : σ → Sketch → Sketch × σ) : σ → List Sketch → Sketch × σ
  | st, [] => ([], st)
  | st, q :: qs => ((F st q).1 ++ (runSk F (F st q).2 qs).1, (runSk F (F st q).2 qs).2)

/-- Pieces of code, and mapped pieces of one line. -/
theorem mapCode_drawn {σ : Type} {f : σ → Str → Str × σ} {F : σ → Sketch → Sketch × σ} {I : σ → Prop} (hF : Lifts I f F)
    {n : LNode} (hn : n.One) (st : σ) (hI : I st) :
    ∃ n', n.mapCode f st = (some n', (F st (sketch n.piece.marks)).2) ∧ Drawn (F st (sketch n.piece.marks)).1 n' := by
  have hsk : ∀ m : LineMarked, (sketch m).map Prod.fst = m.map Prod.fst := by
    intro m; simp [sketch, Function.comp_def]
  cases n with
  | code s =>
    have e : (sketch (LNode.code s).piece.marks).map Prod.fst = s := by
      rw [hsk]; simp [LNode.piece, Piece.marks, Function.comp_def]
    refine ⟨.code (f st s).1, ?_, ?_⟩
    · simp only [LNode.mapCode, hF.state, e]
    · refine ⟨by rw [hF.text, e], ?_⟩
      intro k hk
      rcases hF.says _ _ k hk with h | ⟨x, hx, h⟩
      · exact .inl h
      · simp only [sketch, LNode.piece, Piece.marks, List.map_map, List.mem_map] at hx
        obtain ⟨c, _, rfl⟩ := hx
        exact .inr h
  | single x =>
    have e : (sketch (LNode.single x).piece.marks).map Prod.fst = x.code := by
      rw [hsk]; simp only [LNode.piece, Piece.marks, linesMarks_fst]
    refine ⟨.single (LSingle.new (f st x.code).1 x.source x.original x.line), ?_, ?_⟩
    · simp only [LNode.mapCode, hF.state, e]
    · refine ⟨by rw [hF.text, e]; rfl, rfl, fun h => (endsNl_iff _).1 h, hF.late _ _ hI (by rw [e]; exact hn.2.2), ?_⟩
      intro k hk
      rcases hF.says _ _ k hk with h | ⟨y, hy, h⟩
      · exact .inl h
      · right
        rw [h]
        simp only [sketch, LNode.piece, Piece.marks, List.mem_map] at hy
        obtain ⟨z, hz, rfl⟩ := hy
        rw [linesMarks_zero] at hz
        obtain ⟨c, _, rfl⟩ := List.mem_map.1 hz
        rfl
  | _ => exact hn.elim

theorem mapLoop_drawn {σ : Type} {f : σ → Str → Str × σ} {F : σ → Sketch → Sketch × σ} {I : σ → Prop}
    (hF : Lifts I f F) :
    ∀ (ns : List LNode) (st : σ) (rev : List LNode), I st → (∀ n ∈ rev, n.Merged) → (∀ n ∈ ns, n.One) →
    (∀ n ∈ (mapLoop f st rev ns).1, n.Merged) ∧
    (mapLoop f st rev ns).2 = (runSk F st (ns.map fun n => sketch n.piece.marks)).2 ∧
    ∃ mb, piecesMarks ((mapLoop f st rev ns).1.reverse.map LNode.piece) =
      piecesMarks (rev.reverse.map LNode.piece) ++ mb ∧
      Agrees (runSk F st (ns.map fun n => sketch n.piece.marks)).1 mb
  | [], _, rev, _, hr, _ => ⟨hr, rfl, [], by simp [mapLoop], trivial⟩
  | n :: ns, st, rev, hI, hr, hn => by
    obtain ⟨n', e1, e2⟩ := mapCode_drawn hF (hn n (by simp)) st hI
    obtain ⟨h1, mb, h2, h2'⟩ := pushMerge_drawn hr e2
    obtain ⟨h3, hs, mb', h4, h5⟩ := mapLoop_drawn hF ns (F st (sketch n.piece.marks)).2 _
      (hF.keeps _ _ hI) h1
      (fun k hk => hn k (by simp [hk]))
    rw [mapLoop, e1]
    refine ⟨h3, hs, mb ++ mb', ?_, h2'.append h5⟩
    rw [h4, h2]
    simp

/-- No two lines in a row come from the same line of a source. -/
def Spec.NoRepeat {β : Type} (m : List (Char × Option β)) : Prop :=
  ∀ x y o c, m = x ++ ('\n', some o) :: (c, some o) :: y → False

theorem Spec.NoRepeat.infix {β : Type} {a b c : List (Char × Option β)} (h : NoRepeat (a ++ b ++ c)) : NoRepeat b :=
  fun x y o d e => h (a ++ x) (y ++ c) o d (by rw [e]; simp)

/-- Single-line nodes then hold one line. -/
theorem neat_of_noRepeat {m : Slm} (hm : ∀ n ∈ m, n.Merged) (hr : NoRepeat (piecesMarks (m.map LNode.piece))) :
    ∀ n ∈ m, n.Neat := by
  intro n hn
  have hM := hm n hn
  obtain ⟨a, b, rfl⟩ := List.append_of_mem hn
  cases n with
  | code s => trivial
  | source x => exact hM
  | single x =>
    refine ⟨hM.1, hM.2, ?_⟩
    intro hmem
    obtain ⟨u, v, huv⟩ := List.append_of_mem hmem
    have hne : x.code ≠ [] := by intro h0; rw [h0] at hmem; cases hmem
    obtain ⟨w, c, hw⟩ : ∃ w c, v ++ [x.code.getLast hne] = c :: w := by
      cases hv : v ++ [x.code.getLast hne] with
      | nil => simp at hv
      | cons c w => exact ⟨w, c, rfl⟩
    have e2 : x.code = u ++ '\n' :: c :: w := by
      have e := List.dropLast_concat_getLast hne
      rw [huv] at e
      rw [← hw]
      simpa using e.symm
    rw [List.map_append, List.map_cons] at hr
    have hb : NoRepeat (LNode.single x).piece.marks := by
      apply Spec.NoRepeat.infix (a := piecesMarks (a.map LNode.piece)) (c := piecesMarks (b.map LNode.piece))
      simpa [piecesMarks] using hr
    apply hb (u.map fun c => (c, some (x.source.getD (-1), x.line))) (w.map fun c => (c, some (x.source.getD (-1), x.line)))
      (x.source.getD (-1), x.line) c
    simp only [LNode.piece, Piece.marks, linesMarks_zero, e2, List.map_append, List.map_cons]
  | _ => exact hM.elim

/-- The rewritten map agrees with the sketch that the function draws from the pieces. -/
theorem mapGenerated_drawn {σ : Type} {f : σ → Str → Str × σ} {F : σ → Sketch → Sketch × σ} {I : σ → Prop}
    (hF : Lifts I f F) (st : σ) (hI : I st) {m : Slm} (hm : ∀ n ∈ m, n.Merged) (hr : NoRepeat (piecesMarks (m.map LNode.piece))) :
    (∀ n ∈ (slmMapGenerated f st m).1, n.Merged) ∧
    ∃ qs : List Sketch, qs.flatten = sketch (piecesMarks (m.map LNode.piece)) ∧
      qs.map (List.map Prod.fst) = normCodes m ∧
      (slmMapGenerated f st m).2 = (runSk F st qs).2 ∧
      Agrees (runSk F st qs).1 (piecesMarks ((slmMapGenerated f st m).1.map LNode.piece)) := by
  obtain ⟨h1, h2⟩ := flatten_marks m (neat_of_noRepeat hm hr)
  obtain ⟨h3, hs, mb, h4, h5⟩ := mapLoop_drawn hF _ st [] hI (by intro n hn; cases hn) h2
  refine ⟨?_, (m.map LNode.normalized).flatten.map (fun n => sketch n.piece.marks), ?_, ?_, ?_, ?_⟩
  · intro n hn
    unfold slmMapGenerated at hn
    dsimp only at hn
    exact h3 n (List.mem_reverse.1 hn)
  · rw [← h1]
    simp [piecesMarks, sketch, List.map_flatten, Function.comp_def]
  · rw [normCodes, List.map_map]
    apply List.map_congr_left
    intro n hn
    have := h2 n hn
    cases n with
    | code s => simp [sketch, LNode.piece, Piece.marks, LNode.codeOf, Function.comp_def]
    | single x =>
      simp only [Function.comp_apply, sketch, LNode.piece, Piece.marks, linesMarks_zero, LNode.codeOf, List.map_map]
      exact List.map_id _
    | _ => exact this.elim
  · exact hs
  · unfold slmMapGenerated
    dsimp only
    rw [h4]
    exact h5

end WS
