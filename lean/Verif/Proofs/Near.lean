import Verif.Proofs.Files
/-! # How far rewriting a list map moves the lines of characters

Lines are kept by rewriting only if no newlines are put in and no two lines in a row come from the same line
(C44, C45). Whatever is put in, a character comes to stand at most one line further down in its file: nodes
are merged only if the second begins on the line it says and holds at most one newline. -/

namespace WS
open Spec

/-- The second origin is the first, up to `d` lines further down. -/
def Spec.NearBy {α : Type} (d : Nat) : Option (α × Nat) → Option (α × Nat) → Prop
  | none, none => True
  | some (f, l), some (f', l') => f' = f ∧ l ≤ l' ∧ l' ≤ l + d
  | _, _ => False

/-- The same text, every character from the same file and up to `d` lines further down. -/
def Spec.Nearly {α : Type} (d : Nat) (m m' : List (Char × Option (α × Nat))) : Prop :=
  m'.length = m.length ∧ ∀ (k : Nat) x y, m[k]? = some x → m'[k]? = some y → y.1 = x.1 ∧ NearBy d x.2 y.2

theorem Spec.NearBy.refl {α : Type} (d : Nat) (o : Option (α × Nat)) : NearBy d o o := by
  cases o with
  | none => trivial
  | some x => exact ⟨rfl, Nat.le_refl _, Nat.le_add_right _ _⟩

theorem Spec.NearBy.trans {α : Type} {d e : Nat} {a b c : Option (α × Nat)} (h : NearBy d a b) (h' : NearBy e b c) :
    NearBy (d + e) a c := by
  cases a <;> cases b <;> cases c <;> simp only [NearBy] at h h' ⊢
  exact ⟨by rw [h'.1, h.1], by omega, by omega⟩

theorem Spec.NearBy.mono {α : Type} {d e : Nat} {a b : Option (α × Nat)} (h : NearBy d a b) (hd : d ≤ e) :
    NearBy e a b := by
  cases a <;> cases b <;> simp only [NearBy] at h ⊢
  exact ⟨h.1, by omega, by omega⟩

theorem Spec.NearBy.map {α β : Type} {d : Nat} {a b : Option (α × Nat)} (g : α → β) (h : NearBy d a b) :
    NearBy d (a.map fun x => (g x.1, x.2)) (b.map fun x => (g x.1, x.2)) := by
  cases a <;> cases b <;> simp only [NearBy, Option.map] at h ⊢
  exact ⟨by rw [h.1], h.2⟩

theorem Spec.NearBy.file {α : Type} {d : Nat} {a b : Option (α × Nat)} (h : NearBy d a b) :
    b.map Prod.fst = a.map Prod.fst := by
  cases a <;> cases b <;> simp only [NearBy, Option.map] at h ⊢
  rw [h.1]

theorem Spec.Nearly.refl {α : Type} (d : Nat) (m : List (Char × Option (α × Nat))) : Nearly d m m :=
  ⟨rfl, fun k x y h h' => by rw [h] at h'; cases h'; exact ⟨rfl, .refl d _⟩⟩

theorem Spec.Nearly.trans {α : Type} {d e : Nat} {a b c : List (Char × Option (α × Nat))} (h : Nearly d a b)
    (h' : Nearly e b c) : Nearly (d + e) a c := by
  refine ⟨by rw [h'.1, h.1], fun k x z hx hz => ?_⟩
  have hk : k < b.length := by rw [h.1]; exact (List.getElem?_eq_some_iff.1 hx).1
  have hy := List.getElem?_eq_getElem hk
  have h1 := h.2 k x _ hx hy
  have h2 := h'.2 k _ z hy hz
  exact ⟨by rw [h2.1, h1.1], h1.2.trans h2.2⟩

theorem Spec.Nearly.mono {α : Type} {d e : Nat} {a b : List (Char × Option (α × Nat))} (h : Nearly d a b)
    (hd : d ≤ e) : Nearly e a b :=
  ⟨h.1, fun k x y hx hy => ⟨(h.2 k x y hx hy).1, (h.2 k x y hx hy).2.mono hd⟩⟩

theorem Spec.Nearly.map {α β : Type} {d : Nat} {a b : List (Char × Option (α × Nat))} (g : α → β) (h : Nearly d a b) :
    Nearly d (a.map fun x => (x.1, x.2.map fun o => (g o.1, o.2)))
      (b.map fun x => (x.1, x.2.map fun o => (g o.1, o.2))) := by
  refine ⟨by simp [h.1], fun k x y hx hy => ?_⟩
  rw [List.getElem?_map] at hx hy
  obtain ⟨x', hx', rfl⟩ := Option.map_eq_some_iff.1 hx
  obtain ⟨y', hy', rfl⟩ := Option.map_eq_some_iff.1 hy
  exact ⟨(h.2 k x' y' hx' hy').1, (h.2 k x' y' hx' hy').2.map g⟩

theorem Spec.Nearly.append {α : Type} {d : Nat} {a b a' b' : List (Char × Option (α × Nat))} (h : Nearly d a a')
    (h' : Nearly d b b') : Nearly d (a ++ b) (a' ++ b') := by
  refine ⟨by simp [h.1, h'.1], fun k x y hx hy => ?_⟩
  by_cases hk : k < a.length
  · rw [List.getElem?_append_left hk] at hx
    rw [List.getElem?_append_left (by rw [h.1]; exact hk)] at hy
    exact h.2 k x y hx hy
  · rw [List.getElem?_append_right (by omega)] at hx
    rw [List.getElem?_append_right (by rw [h.1]; omega), h.1] at hy
    exact h'.2 _ x y hx hy

theorem Spec.Nearly.cons {α : Type} {d : Nat} {x y : Char × Option (α × Nat)} {a b : List (Char × Option (α × Nat))}
    (h1 : y.1 = x.1) (h2 : NearBy d x.2 y.2) (h : Nearly d a b) : Nearly d (x :: a) (y :: b) := by
  refine ⟨by simp [h.1], fun k u v hu hv => ?_⟩
  cases k with
  | zero => cases hu; cases hv; exact ⟨h1, h2⟩
  | succ k => exact h.2 k u v (by simpa using hu) (by simpa using hv)

theorem Spec.Nearly.take {α : Type} {d : Nat} {a b : List (Char × Option (α × Nat))} (h : Nearly d a b) (n : Nat) :
    Nearly d (a.take n) (b.take n) := by
  refine ⟨by simp [h.1], fun k x y hx hy => ?_⟩
  rw [List.getElem?_take] at hx hy
  split at hx
  · rename_i hk
    rw [if_pos hk] at hy
    exact h.2 k x y hx hy
  · cases hx

theorem Spec.Nearly.drop {α : Type} {d : Nat} {a b : List (Char × Option (α × Nat))} (h : Nearly d a b) (n : Nat) :
    Nearly d (a.drop n) (b.drop n) := by
  refine ⟨by simp [h.1], fun k x y hx hy => ?_⟩
  rw [List.getElem?_drop] at hx hy
  exact h.2 _ x y hx hy

theorem Spec.Nearly.fst {α : Type} {d : Nat} {a b : List (Char × Option (α × Nat))} (h : Nearly d a b) :
    b.map Prod.fst = a.map Prod.fst := by
  apply List.ext_getElem?
  intro k
  rw [List.getElem?_map, List.getElem?_map]
  cases hx : a[k]? with
  | none => rw [List.getElem?_eq_none (by rw [h.1]; exact List.getElem?_eq_none_iff.1 hx)]
  | some x =>
    have hk : k < b.length := by rw [h.1]; exact (List.getElem?_eq_some_iff.1 hx).1
    have hy := List.getElem?_eq_getElem hk
    rw [hy, Option.map_some, Option.map_some, (h.2 k x _ hx hy).1]

theorem Spec.Nearly.files {α : Type} {d : Nat} {a b : List (Char × Option (α × Nat))} (h : Nearly d a b) :
    Spec.files b = Spec.files a := by
  apply List.ext_getElem?
  intro k
  rw [Spec.files, Spec.files, List.getElem?_map, List.getElem?_map]
  cases hx : a[k]? with
  | none => rw [List.getElem?_eq_none (by rw [h.1]; exact List.getElem?_eq_none_iff.1 hx)]
  | some x =>
    have hk : k < b.length := by rw [h.1]; exact (List.getElem?_eq_some_iff.1 hx).1
    have hy := List.getElem?_eq_getElem hk
    obtain ⟨h1, h2⟩ := h.2 k x _ hx hy
    rw [hy, Option.map_some, Option.map_some, h1, h2.file]

/-! ## Merging -/

theorem linesMarks_near (src : Int) : ∀ (t : Str) (n n' : Nat), n ≤ n' → n' + t.count '\n' ≤ n + 1 →
    Nearly 1 (linesMarks src 0 n t) (linesMarks src 1 n' t)
  | [], _, _, _, _ => .refl _ _
  | c :: t, n, n', h, h' => by
    rw [linesMarks, linesMarks]
    refine .cons rfl ⟨rfl, h, by omega⟩ ?_
    by_cases hc : c = '\n'
    · subst hc
      rw [List.count_cons_self] at h'
      rw [if_pos rfl, if_pos rfl]
      exact linesMarks_near src t _ _ (by omega) (by omega)
    · rw [List.count_cons_of_ne hc] at h'
      rw [if_neg hc, if_neg hc]
      exact linesMarks_near src t _ _ h h'

/-- Merging leaves the first node's text where it is and moves that of the second by one line at most. -/
theorem merge_near {a b c : LNode} (ha : a.Merged) (hb : b.Merged) (hbit : b.Bit) (h : a.merge b = some c) :
    c.Merged ∧ ∃ mb, c.piece.marks = a.piece.marks ++ mb ∧ Nearly 1 b.piece.marks mb := by
  have hcount : ∀ x y : Str, (x ++ y).count '\n' = x.count '\n' + y.count '\n' := fun _ _ => List.count_append
  have hlast : ∀ (x : Str) {y : Str}, y.getLast? = some '\n' → (x ++ y).getLast? = some '\n' := by
    intro x y h; rw [List.getLast?_append, h]; rfl
  cases b with
  | code s =>
    cases a with
    | code t =>
      simp only [LNode.merge, Option.some.injEq] at h
      subst h
      exact ⟨trivial, _, by simp only [LNode.piece, Piece.marks, List.map_append], .refl _ _⟩
    | _ => simp [LNode.merge] at h
  | single o =>
    obtain ⟨o1, o2⟩ := hb
    cases a with
    | source n =>
      obtain ⟨n1, n2⟩ := ha
      simp only [LNode.merge, LSource.mergeSingle] at h
      split at h
      · rename_i hc
        obtain ⟨c1, c2, c3, c4⟩ := hc
        simp only [Option.map_some, Option.some.injEq] at h
        subst h
        refine ⟨⟨by simp only [hcount]; omega, fun he => hlast _ (o2 he)⟩, _, ?_,
          linesMarks_near (o.source.getD (-1)) o.code o.line o.line (Nat.le_refl _) (by omega)⟩
        simp only [LNode.piece, Piece.marks, linesMarks_append, c1]
        rw [n1] at c3
        rw [Nat.mul_one, c3]
      · cases h
    | single n =>
      obtain ⟨n1, n2⟩ := ha
      simp only [LNode.merge, LSingle.mergeSingle] at h
      split at h
      · rename_i hso
        split at h
        · rename_i hl
          simp only [Option.some.injEq] at h
          subst h
          refine ⟨⟨by simp only [hcount]; omega, fun he => hlast _ (o2 he)⟩, _, ?_, .refl _ _⟩
          simp only [LNode.piece, Piece.marks, linesMarks_append, hso.1]
          rw [Nat.mul_zero, Nat.add_zero, hl]
        · split at h
          · rename_i hc
            simp only [Option.some.injEq] at h
            subst h
            obtain ⟨c1, c2, c3, c4⟩ := hc
            refine ⟨⟨rfl, fun he => (endsNl_iff _).1 he⟩, _, ?_,
              linesMarks_near (o.source.getD (-1)) o.code o.line o.line (Nat.le_refl _) (by omega)⟩
            have hl := n2 c2
            have hd : '\n' ∉ n.code.dropLast := by
              intro hmem
              have hne : n.code ≠ [] := by intro h0; rw [h0] at hl; cases hl
              have e := List.dropLast_concat_getLast hne
              rw [List.getLast?_eq_some_getLast hne] at hl
              rw [Option.some.inj hl] at e
              have h2 : 1 ≤ n.code.dropLast.count '\n' := List.count_pos_iff.2 hmem
              have h3 : n.code.count '\n' = n.code.dropLast.count '\n' + 1 := by
                conv => lhs; rw [← e]
                rw [hcount]; rfl
              omega
            simp only [LNode.piece, Piece.marks, LSource.new, linesMarks_append, hso.1]
            have hcnt : n.code.count '\n' = 1 := by omega
            rw [hcnt, Nat.one_mul, c1, linesMarks_tidy _ 1 0 _ hd]
          · cases h
      · cases h
    | _ => simp [LNode.merge] at h
  | _ => exact hbit.elim

theorem pushMerge_near {rev : List LNode} (hr : ∀ n ∈ rev, n.Merged) {n : LNode} (hn : n.Merged) (hb : n.Bit) :
    (∀ k ∈ pushMerge rev (some n), k.Merged) ∧
    ∃ mb, piecesMarks ((pushMerge rev (some n)).reverse.map LNode.piece) =
      piecesMarks (rev.reverse.map LNode.piece) ++ mb ∧ Nearly 1 n.piece.marks mb := by
  unfold pushMerge
  cases rev with
  | nil =>
    exact ⟨by intro k hk; rw [List.mem_singleton.1 hk]; exact hn, n.piece.marks, by simp [piecesMarks], .refl _ _⟩
  | cons last rest =>
    dsimp only
    cases hm : last.merge n with
    | none =>
      refine ⟨?_, n.piece.marks, by simp [piecesMarks], .refl _ _⟩
      intro k hk
      rcases List.mem_cons.1 hk with rfl | hk
      · exact hn
      · exact hr k hk
    | some m =>
      obtain ⟨h1, mb, h2, h3⟩ := merge_near (hr last (by simp)) hn hb hm
      refine ⟨?_, mb, ?_, h3⟩
      · intro k hk
        rcases List.mem_cons.1 hk with rfl | hk
        · exact h1
        · exact hr k (by simp [hk])
      · simp [piecesMarks, h2]

/-! ## Rewriting -/

theorem mapCode_near {σ : Type} {f : σ → Str → Str × σ} {F : σ → Sketch → Sketch × σ} (hF : Carries f F)
    {n : LNode} (hn : n.Bit) (st : σ) :
    ∃ n', n.mapCode f st = (some n', (F st (sketch n.piece.marks)).2) ∧ n'.Bit ∧ n'.Merged ∧
      Agrees (F st (sketch n.piece.marks)).1 n'.piece.marks := by
  have hsk : ∀ m : LineMarked, (sketch m).map Prod.fst = m.map Prod.fst := by
    intro m; simp [sketch, Function.comp_def]
  have key : ∀ (o : Option (Int × Nat)) (s : Str), n.piece.marks = s.map (fun c => (c, o)) →
      Agrees (F st (sketch n.piece.marks)).1 ((f st s).1.map fun c => (c, o)) := by
    intro o s e
    have e2 : (sketch n.piece.marks).map Prod.fst = s := by rw [hsk, e]; simp [Function.comp_def]
    have := agrees_const o (F st (sketch n.piece.marks)).1 (by
      intro k hk
      rcases hF.says _ _ k hk with h | ⟨x, hx, h⟩
      · exact .inl h
      · right
        rw [h]
        rw [e, sketch, List.map_map] at hx
        obtain ⟨c, _, rfl⟩ := List.mem_map.1 hx
        rfl)
    rw [hF.text, e2] at this
    exact this
  cases n with
  | code s =>
    have e : (sketch (LNode.code s).piece.marks).map Prod.fst = s := by
      rw [hsk]; simp [LNode.piece, Piece.marks, Function.comp_def]
    exact ⟨.code (f st s).1, by simp only [LNode.mapCode, hF.state, e], trivial, trivial, key none s rfl⟩
  | single x =>
    have e : (sketch (LNode.single x).piece.marks).map Prod.fst = x.code := by
      rw [hsk]; simp only [LNode.piece, Piece.marks, linesMarks_fst]
    refine ⟨.single (LSingle.new (f st x.code).1 x.source x.original x.line),
      by simp only [LNode.mapCode, hF.state, e], trivial, ⟨rfl, fun h => (endsNl_iff _).1 h⟩, ?_⟩
    have := key (some (x.source.getD (-1), x.line)) x.code (linesMarks_zero _ _ _)
    rw [← linesMarks_zero] at this
    exact this
  | _ => exact hn.elim

theorem mapLoop_near {σ : Type} {f : σ → Str → Str × σ} {F : σ → Sketch → Sketch × σ} (hF : Carries f F) :
    ∀ (ns : List LNode) (st : σ) (rev : List LNode), (∀ n ∈ rev, n.Merged) → (∀ n ∈ ns, n.Bit) →
    (mapLoop f st rev ns).2 = (runSk F st (ns.map fun n => sketch n.piece.marks)).2 ∧
    ∃ mid mb, piecesMarks ((mapLoop f st rev ns).1.reverse.map LNode.piece) =
      piecesMarks (rev.reverse.map LNode.piece) ++ mb ∧
      Agrees (runSk F st (ns.map fun n => sketch n.piece.marks)).1 mid ∧ Nearly 1 mid mb
  | [], _, rev, hr, _ => ⟨rfl, [], [], by simp [mapLoop], trivial, .refl _ _⟩
  | n :: ns, st, rev, hr, hn => by
    obtain ⟨n', e1, e2, e3, e4⟩ := mapCode_near hF (hn n (by simp)) st
    obtain ⟨h1, mb, h2, h3⟩ := pushMerge_near hr e3 e2
    obtain ⟨hs, mid', mb', h4, h5, h6⟩ := mapLoop_near hF ns (F st (sketch n.piece.marks)).2 _ h1
      (fun k hk => hn k (by simp [hk]))
    rw [mapLoop, e1]
    refine ⟨hs, n'.piece.marks ++ mid', mb ++ mb', ?_, e4.append h5, h3.append h6⟩
    rw [h4, h2, List.append_assoc]

/-- The rewritten map says what the function draws from the pieces, up to one line further down. -/
theorem mapGenerated_near {σ : Type} {f : σ → Str → Str × σ} {F : σ → Sketch → Sketch × σ}
    (hF : Carries f F) (st : σ) {m : Slm} (hm : ∀ n ∈ m, n.Merged) :
    ∃ (qs : List Sketch) (mid : LineMarked), qs.flatten = sketch (piecesMarks (m.map LNode.piece)) ∧
      (slmMapGenerated f st m).2 = (runSk F st qs).2 ∧ Agrees (runSk F st qs).1 mid ∧
      Nearly 1 mid (piecesMarks ((slmMapGenerated f st m).1.map LNode.piece)) := by
  obtain ⟨h1, h2⟩ := flatten_bits m hm
  obtain ⟨hs, mid, mb, h4, h5, h6⟩ := mapLoop_near hF _ st [] (by intro n hn; cases hn) h2
  refine ⟨(m.map LNode.normalized).flatten.map (fun n : LNode => sketch n.piece.marks), mid, ?_, hs, h5, ?_⟩
  · rw [← h1]
    simp [piecesMarks, sketch, List.map_flatten, Function.comp_def]
  · unfold slmMapGenerated
    dsimp only
    rw [h4]
    exact h6

/-- C44 for every list map and prefix: every character is still there, and between them stand copies of the
prefix; every character comes from the same file, and at most one line further down. -/
theorem C44_near (p : List Char) (m : Slm) (hm : ∀ n ∈ m, n.Merged) :
    ∃ mid, WithCopies p (piecesMarks (m.map LNode.piece)) mid ∧
      Nearly 1 mid (piecesMarks ((prefixListMap p m).map LNode.piece)) := by
  obtain ⟨qs, mid, h1, _, h4, h6⟩ := mapGenerated_near (prefixSk_carries p) () hm
  obtain ⟨ms, h5, rfl⟩ := unsketch h1
  rw [runSk_prefix, List.map_map] at h4
  exact ⟨mid, by rw [← h5]; exact withCopies_runs p ms h4, h6⟩

theorem replaced_near (m : Slm) (sorted : List Repl) (hm : ∀ n ∈ m, n.Merged)
    (ho : LeftToRight (sorted.map Repl.edit).reverse) :
    ∃ ets, Attributed (sorted.map Repl.edit).reverse ets ∧
      Nearly 1 (spliceL (piecesMarks (m.map LNode.piece)) 0 ets)
        (piecesMarks ((replaceListMap m sorted).map LNode.piece)) := by
  rw [← List.map_reverse] at ho ⊢
  obtain ⟨qs, mid, h1, h3, h4, hn⟩ := mapGenerated_near rm_carries ⟨0, sorted.reverse, 0⟩ hm
  rw [runSk_eq] at h3 h4
  have h0 : RmInvG blankMark (sorted.reverse.map Repl.edit) [] [] ⟨0, sorted.reverse, 0⟩ :=
    ⟨by simp, ho, fun _ => rfl, fun _ _ => by simp, fun v => by simp⟩
  have h5 := runSk_rm qs h0
  rw [List.nil_append, List.nil_append, h1, ← h3] at h5
  have h6 := h5.same []
  rw [List.append_nil, spliceG_behind _ _ _ _ (by omega) (fun r hr => by have := h5.ahead r hr; omega) h5.order] at h6
  have hflat : ∀ rs : List Repl, (rs.map fun r => r.text.map blankMark).flatten =
      (rs.map Repl.text).flatten.map blankMark := by
    intro rs
    rw [List.map_flatten, List.map_map]
    rfl
  have key : ∃ mid', Agrees (spliceG blankMark (sketch (piecesMarks (m.map LNode.piece))) 0
      (sorted.reverse.map Repl.edit)) mid' ∧
      Nearly 1 mid' (piecesMarks ((replaceListMap m sorted).map LNode.piece)) := by
    rw [h6, replaceListMap, hflat]
    dsimp only
    split
    · rename_i he
      rw [List.isEmpty_iff.1 he, List.map_nil, List.append_nil]
      exact ⟨mid, h4, hn⟩
    · rw [slmAddStr_marks]
      refine ⟨_, h4.append (agrees_none ?_ ?_), hn.append (.refl _ _)⟩
      · simp [blankMark, Function.comp_def]
      · intro k hk
        obtain ⟨c, _, rfl⟩ := List.mem_map.1 hk
        rfl
  obtain ⟨mid', k1, k2⟩ := key
  obtain ⟨ets, k3, k4⟩ := agrees_splice _ _ _ _ k1
  exact ⟨ets, k3, by rw [← k4]; exact k2⟩

/-- C45 for every list map, all requests and every texts put in: the edited map says of every character that
stays what the map said, up to one line further down. Of overlapping requests each takes what the ones before
it left over. -/
theorem C45_near (m : Slm) (sorted : List Repl) (hm : ∀ n ∈ m, n.Merged) :
    ∃ ets, Attributed (clipped 0 (sorted.map Repl.edit).reverse) ets ∧
      Nearly 1 (spliceL (piecesMarks (m.map LNode.piece)) 0 ets)
        (piecesMarks ((replaceListMap m sorted).map LNode.piece)) := by
  rw [← replaceListMap_clipped m sorted, ← clipRepls_reverse]
  exact replaced_near m _ hm (by rw [clipRepls_reverse]; exact clipped_leftToRight _ _)

end WS
