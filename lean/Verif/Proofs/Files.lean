import Verif.Props.C45
/-! # What rewriting a list map does to the file of every character

Unlike lines (C44, C45), files are kept whatever is put in: nodes are merged only if their files are equal. -/

namespace WS
open Spec

/-- The files of an attributed text. -/
def Spec.files {α β : Type} (m : List (Char × Option (α × β))) : List (Char × Option α) :=
  m.map fun k => (k.1, k.2.map Prod.fst)

/-- Nodes that come about are code, source or single-line nodes. -/
def LNode.Kind : LNode → Prop
  | .code _ | .source _ | .single _ => True
  | _ => False

/-- The file of a node. -/
def LNode.fileOf : LNode → Option Int
  | .source n => some (n.source.getD (-1))
  | .single n => some (n.source.getD (-1))
  | _ => none

/-- Forget the lines. -/
def flat (m : LineMarked) : LineMarked := m.map fun k => (k.1, k.2.map fun o => (o.1, 0))

theorem flat_append (a b : LineMarked) : flat (a ++ b) = flat a ++ flat b := List.map_append

theorem flat_lines (src : Int) (step : Nat) : ∀ (n : Nat) (t : Str),
    flat (linesMarks src step n t) = t.map fun c => (c, some (src, 0))
  | _, [] => rfl
  | n, c :: t => by
    rw [linesMarks, flat, List.map_cons]
    exact congrArg _ (flat_lines src step _ t)

theorem flat_piece {n : LNode} (h : n.Kind) :
    flat n.piece.marks = n.codeOf.map fun c => (c, n.fileOf.map fun i => (i, 0)) := by
  cases n with
  | code s => simp [LNode.piece, Piece.marks, flat, LNode.codeOf, LNode.fileOf]
  | source x => exact flat_lines _ _ _ _
  | single x => exact flat_lines _ _ _ _
  | _ => exact h.elim

theorem merge_flat {a b c : LNode} (ha : a.Kind) (hb : b.Kind) (h : a.merge b = some c) :
    c.Kind ∧ flat c.piece.marks = flat a.piece.marks ++ flat b.piece.marks := by
  have key : c.Kind ∧ c.fileOf = a.fileOf ∧ b.fileOf = a.fileOf ∧ c.codeOf = a.codeOf ++ b.codeOf := by
    cases a with
    | code s =>
      cases b with
      | code t => simp only [LNode.merge, Option.some.injEq] at h; subst h; exact ⟨trivial, rfl, rfl, rfl⟩
      | _ => simp [LNode.merge] at h
    | source n =>
      cases b with
      | source o =>
        simp only [LNode.merge, LSource.mergeSource] at h
        split at h
        · rename_i hc
          simp only [Option.map_some, Option.some.injEq] at h
          subst h
          refine ⟨trivial, rfl, ?_, rfl⟩
          simp only [LNode.fileOf, hc.1]
        · cases h
      | single o =>
        simp only [LNode.merge, LSource.mergeSingle] at h
        split at h
        · rename_i hc
          simp only [Option.map_some, Option.some.injEq] at h
          subst h
          refine ⟨trivial, rfl, ?_, rfl⟩
          simp only [LNode.fileOf, hc.1]
        · cases h
      | _ => simp [LNode.merge] at h
    | single n =>
      cases b with
      | single o =>
        simp only [LNode.merge, LSingle.mergeSingle] at h
        split at h
        · rename_i hc
          split at h
          · cases h
            refine ⟨trivial, rfl, ?_, rfl⟩
            simp only [LNode.fileOf, hc.1]
          · split at h
            · cases h
              refine ⟨trivial, rfl, ?_, rfl⟩
              simp only [LNode.fileOf, hc.1]
            · cases h
        · cases h
      | _ => simp [LNode.merge] at h
    | _ => exact ha.elim
  obtain ⟨h1, h2, h3, h4⟩ := key
  refine ⟨h1, ?_⟩
  rw [flat_piece ha, flat_piece hb, flat_piece h1, h2, h3, h4, List.map_append]

theorem pushMerge_flat {rev : List LNode} (hr : ∀ n ∈ rev, n.Kind) {n : LNode} (hn : n.Kind) :
    (∀ k ∈ pushMerge rev (some n), k.Kind) ∧
    flat (piecesMarks ((pushMerge rev (some n)).reverse.map LNode.piece)) =
      flat (piecesMarks (rev.reverse.map LNode.piece)) ++ flat n.piece.marks := by
  unfold pushMerge
  cases rev with
  | nil => exact ⟨by intro k hk; rw [List.mem_singleton.1 hk]; exact hn, by simp [piecesMarks, flat]⟩
  | cons last rest =>
    dsimp only
    cases hm : last.merge n with
    | none =>
      refine ⟨?_, by simp [piecesMarks, flat]⟩
      intro k hk
      rcases List.mem_cons.1 hk with rfl | hk
      · exact hn
      · exact hr k hk
    | some m =>
      obtain ⟨h1, h2⟩ := merge_flat (hr last (by simp)) hn hm
      refine ⟨?_, ?_⟩
      · intro k hk
        rcases List.mem_cons.1 hk with rfl | hk
        · exact h1
        · exact hr k (by simp [hk])
      · have e : ∀ x : LNode, piecesMarks ((x :: rest).reverse.map LNode.piece) =
            piecesMarks (rest.reverse.map LNode.piece) ++ x.piece.marks := by
          intro x; simp [piecesMarks]
        rw [e, e, flat_append, flat_append, h2, List.append_assoc]

/-- A rewriting function that carries attributions along. -/
structure Carries {σ : Type} (f : σ → Str → Str × σ) (F : σ → Sketch → Sketch × σ) : Prop where
  text : ∀ st q, (F st q).1.map Prod.fst = (f st (q.map Prod.fst)).1
  state : ∀ st q, (F st q).2 = (f st (q.map Prod.fst)).2
  says : ∀ st q, ∀ k ∈ (F st q).1, k.2 = none ∨ ∃ e ∈ q, k.2 = e.2

theorem agrees_const (o : Option (Int × Nat)) : ∀ (q : Sketch), (∀ k ∈ q, k.2 = none ∨ k.2 = some o) →
    Agrees q ((q.map Prod.fst).map fun c => (c, o))
  | [], _ => trivial
  | (c, p) :: q, h => by
    refine ⟨rfl, ?_, agrees_const o q (fun k hk => h k (by simp [hk]))⟩
    intro o' ho
    rcases h (c, p) (by simp) with h | h <;> rw [ho] at h <;> cases h
    rfl

/-- Code and single-line nodes. -/
def LNode.Bit : LNode → Prop
  | .code _ | .single _ => True
  | _ => False

theorem LNode.Bit.kind {n : LNode} (h : n.Bit) : n.Kind := by cases n <;> first | trivial | exact h

theorem mapCode_flat {σ : Type} {f : σ → Str → Str × σ} {F : σ → Sketch → Sketch × σ} (hF : Carries f F)
    {n : LNode} (hn : n.Bit) (st : σ) :
    ∃ n', n.mapCode f st = (some n', (F st (sketch (flat n.piece.marks))).2) ∧ n'.Kind ∧
      Agrees (F st (sketch (flat n.piece.marks))).1 (flat n'.piece.marks) := by
  have e : (sketch (flat n.piece.marks)).map Prod.fst = n.codeOf := by
    rw [flat_piece hn.kind]; simp [sketch, Function.comp_def]
  have key : ∀ n' : LNode, n'.Kind → n'.codeOf = (f st n.codeOf).1 → n'.fileOf = n.fileOf →
      Agrees (F st (sketch (flat n.piece.marks))).1 (flat n'.piece.marks) := by
    intro n' h1 h2 h3
    rw [flat_piece h1, h2, h3, ← e, ← hF.text]
    apply agrees_const
    intro k hk
    rcases hF.says _ _ k hk with h | ⟨x, hx, h⟩
    · exact .inl h
    · right
      rw [h]
      rw [flat_piece hn.kind] at hx
      simp only [sketch, List.map_map, List.mem_map] at hx
      obtain ⟨c, _, rfl⟩ := hx
      rfl
  cases n with
  | code s =>
    refine ⟨.code (f st s).1, ?_, trivial, key _ trivial rfl rfl⟩
    rw [LNode.mapCode, hF.state, e]; rfl
  | single x =>
    refine ⟨.single (LSingle.new (f st x.code).1 x.source x.original x.line), ?_, trivial, key _ trivial rfl rfl⟩
    rw [LNode.mapCode, hF.state, e]; rfl
  | _ => exact hn.elim

theorem mapLoop_flat {σ : Type} {f : σ → Str → Str × σ} {F : σ → Sketch → Sketch × σ} (hF : Carries f F) :
    ∀ (ns : List LNode) (st : σ) (rev : List LNode), (∀ n ∈ rev, n.Kind) → (∀ n ∈ ns, n.Bit) →
    (mapLoop f st rev ns).2 = (runSk F st (ns.map fun n => sketch (flat n.piece.marks))).2 ∧
    ∃ mb, flat (piecesMarks ((mapLoop f st rev ns).1.reverse.map LNode.piece)) =
      flat (piecesMarks (rev.reverse.map LNode.piece)) ++ mb ∧
      Agrees (runSk F st (ns.map fun n => sketch (flat n.piece.marks))).1 mb
  | [], _, rev, hr, _ => ⟨rfl, [], by simp [mapLoop], trivial⟩
  | n :: ns, st, rev, hr, hn => by
    obtain ⟨n', e1, e2, e3⟩ := mapCode_flat hF (hn n (by simp)) st
    obtain ⟨h1, h2⟩ := pushMerge_flat hr e2
    obtain ⟨hs, mb', h4, h5⟩ := mapLoop_flat hF ns (F st (sketch (flat n.piece.marks))).2 _ h1
      (fun k hk => hn k (by simp [hk]))
    rw [mapLoop, e1]
    refine ⟨hs, flat n'.piece.marks ++ mb', ?_, e3.append h5⟩
    rw [h4, h2, List.append_assoc]

theorem normalized_bits {n : LNode} (hn : n.Merged) :
    piecesMarks (n.normalized.map LNode.piece) = n.piece.marks ∧ ∀ k ∈ n.normalized, k.Bit := by
  cases n with
  | code s => exact ⟨by simp [LNode.normalized, piecesMarks], by
      intro k hk; rw [List.mem_singleton.1 hk]; trivial⟩
  | source n =>
    refine ⟨(normLines_marks n.source n.original n.endsNl n.code n.startLine (fun h => .inr (hn.2 h))).1, ?_⟩
    intro k hk
    obtain ⟨l, j, rfl, -⟩ := normLines_mem hk
    trivial
  | single n => exact ⟨by simp [LNode.normalized, piecesMarks], by
      intro k hk; rw [List.mem_singleton.1 hk]; trivial⟩
  | _ => exact hn.elim

theorem flatten_bits : ∀ (m : Slm), (∀ n ∈ m, n.Merged) →
    piecesMarks ((m.map LNode.normalized).flatten.map LNode.piece) = piecesMarks (m.map LNode.piece) ∧
    ∀ n ∈ (m.map LNode.normalized).flatten, n.Bit
  | [], _ => ⟨rfl, by intro n hn; cases hn⟩
  | n :: m, h => by
    obtain ⟨h1, h2⟩ := normalized_bits (h n (by simp))
    obtain ⟨h3, h4⟩ := flatten_bits m (fun k hk => h k (by simp [hk]))
    refine ⟨?_, ?_⟩
    · have : ∀ xs ys : List Piece, piecesMarks (xs ++ ys) = piecesMarks xs ++ piecesMarks ys := by
        intro xs ys; simp [piecesMarks]
      rw [List.map_cons, List.flatten_cons, List.map_append, this, h1, h3]
      simp [piecesMarks]
    · intro k hk
      rw [List.map_cons, List.flatten_cons] at hk
      rcases List.mem_append.1 hk with hk | hk
      · exact h2 k hk
      · exact h4 k hk

/-- The rewritten map agrees, as to files, with the sketch that the function draws from the pieces. -/
theorem mapGenerated_flat {σ : Type} {f : σ → Str → Str × σ} {F : σ → Sketch → Sketch × σ}
    (hF : Carries f F) (st : σ) {m : Slm} (hm : ∀ n ∈ m, n.Merged) :
    ∃ qs : List Sketch, qs.flatten = sketch (flat (piecesMarks (m.map LNode.piece))) ∧
      (slmMapGenerated f st m).2 = (runSk F st qs).2 ∧
      Agrees (runSk F st qs).1 (flat (piecesMarks ((slmMapGenerated f st m).1.map LNode.piece))) := by
  obtain ⟨h1, h2⟩ := flatten_bits m hm
  obtain ⟨hs, mb, h4, h5⟩ := mapLoop_flat hF _ st [] (by intro n hn; cases hn) h2
  refine ⟨(m.map LNode.normalized).flatten.map (fun n : LNode => sketch (flat n.piece.marks)), ?_, hs, ?_⟩
  · rw [← h1]
    simp [piecesMarks, sketch, flat, List.map_flatten, Function.comp_def]
  · unfold slmMapGenerated
    dsimp only
    rw [h4]
    exact h5

theorem prefixSk_carries (p : Str) : Carries (prefixMap p) (prefixSk p) := by
  refine ⟨?_, fun _ _ => rfl, ?_⟩
  · intro st q
    simp only [prefixMap, makePrefixed_eq]
    by_cases hq : q = []
    · subst hq
      simp [prefixSk, indent, indentRest, Function.comp_def]
    · simp only [prefixSk, if_neg hq, indentX_fst p hq]
  · intro st q k hk
    by_cases hq : q = []
    · subst hq
      simp only [prefixSk, if_pos] at hk
      obtain ⟨c, _, rfl⟩ := List.mem_map.1 hk
      exact .inl rfl
    · simp only [prefixSk, if_neg hq] at hk
      exact .inr (indentX_says p q k hk)

theorem rm_carries : Carries rmMap (rmMapG blankMark) where
  text st q := by rw [rmMap_map]
  state st q := by rw [rmMap_map]
  says st q k hk := (rmMapG_says st q k hk).imp id fun h => ⟨k, h, rfl⟩

theorem withCopies_map {β γ : Type} (g : β → γ) {p : List Char} {a b : List (Char × β)} (h : WithCopies p a b) :
    WithCopies p (a.map fun x => (x.1, g x.2)) (b.map fun x => (x.1, g x.2)) := by
  induction h with
  | nil => exact .nil
  | keep x _ ih => exact .keep _ ih
  | copy e _ ih =>
    rw [List.map_append]
    refine .copy ?_ ih
    rw [← e, List.map_map]
    rfl

theorem spliceL_map {β γ : Type} (g : β → γ) (m : List (Char × β)) : ∀ (ets : List (Edit × List (Char × β))) (k : Nat),
    (spliceL m k ets).map (fun x => (x.1, g x.2)) =
      spliceL (m.map fun x => (x.1, g x.2)) k (ets.map fun e => (e.1, e.2.map fun x => (x.1, g x.2)))
  | [], k => by simp [spliceL]
  | (e, t) :: ets, k => by
    simp only [List.map_cons, spliceL, List.map_append, List.map_drop, List.map_take]
    rw [spliceL_map g m ets]

theorem attributed_map {β γ : Type} (g : β → γ) {es : List Edit} {ets : List (Edit × List (Char × β))}
    (h : Attributed es ets) : Attributed es (ets.map fun e => (e.1, e.2.map fun x => (x.1, g x.2))) := by
  refine ⟨?_, ?_⟩
  · rw [List.map_map, ← h.1]; rfl
  · intro p hp
    obtain ⟨q, hq, rfl⟩ := List.mem_map.1 hp
    dsimp only
    rw [List.map_map, ← h.2 q hq]
    rfl

theorem files_flat (m : LineMarked) : files m = (flat m).map fun x => (x.1, x.2.map Prod.fst) := by
  simp [files, flat, Function.comp_def]

/-- C44 as to files, for every list map and prefix: every character is still there, from the same file,
and between them stand copies of the prefix. -/
theorem C44_files (p : List Char) (m : Slm) (hm : ∀ n ∈ m, n.Merged) :
    WithCopies p (files (piecesMarks (m.map LNode.piece)))
      (files (piecesMarks ((prefixListMap p m).map LNode.piece))) := by
  obtain ⟨qs, h1, _, h4⟩ := mapGenerated_flat (prefixSk_carries p) () hm
  obtain ⟨ms, h5, rfl⟩ := unsketch h1
  rw [runSk_prefix, List.map_map] at h4
  rw [files_flat, files_flat, ← h5]
  exact withCopies_map _ (withCopies_runs p ms h4)

theorem replaced_files (m : Slm) (sorted : List Repl) (hm : ∀ n ∈ m, n.Merged)
    (ho : LeftToRight (sorted.map Repl.edit).reverse) :
    ∃ ets, Attributed (sorted.map Repl.edit).reverse ets ∧
      files (piecesMarks ((replaceListMap m sorted).map LNode.piece)) =
        spliceL (files (piecesMarks (m.map LNode.piece))) 0 ets := by
  rw [← List.map_reverse] at ho ⊢
  obtain ⟨qs, h1, h3, h4⟩ := mapGenerated_flat rm_carries ⟨0, sorted.reverse, 0⟩ hm
  rw [runSk_eq] at h3 h4
  have h0 : RmInvG blankMark (sorted.reverse.map Repl.edit) [] [] ⟨0, sorted.reverse, 0⟩ :=
    ⟨by simp, ho, fun _ => rfl, fun _ _ => by simp, fun v => by simp⟩
  have h5 := runSk_rm qs h0
  rw [List.nil_append, List.nil_append, h1, ← h3] at h5
  have h6 := h5.same []
  rw [List.append_nil, spliceG_behind _ _ _ _ (by omega) (fun r hr => by have := h5.ahead r hr; omega) h5.order] at h6
  have key : ∃ ets, Attributed (sorted.reverse.map Repl.edit) ets ∧
      flat (piecesMarks ((replaceListMap m sorted).map LNode.piece)) =
        spliceL (flat (piecesMarks (m.map LNode.piece))) 0 ets := by
    apply agrees_splice
    rw [h6, replaceListMap]
    dsimp only
    have hflat : ∀ rs : List Repl, (rs.map fun r => r.text.map blankMark).flatten =
        (rs.map Repl.text).flatten.map blankMark := by
      intro rs
      rw [List.map_flatten, List.map_map]
      rfl
    rw [hflat]
    split
    · rename_i he
      rw [List.isEmpty_iff.1 he, List.map_nil, List.append_nil]
      exact h4
    · rw [slmAddStr_marks, flat_append]
      refine h4.append (agrees_none ?_ ?_)
      · simp [blankMark, flat, Function.comp_def]
      · intro k hk
        obtain ⟨c, _, rfl⟩ := List.mem_map.1 hk
        rfl
  obtain ⟨ets, k1, k2⟩ := key
  refine ⟨_, attributed_map (fun o : Option (Int × Nat) => o.map Prod.fst) k1, ?_⟩
  rw [files_flat, files_flat, k2]
  exact spliceL_map _ _ _ _

/-- C45 as to files, for every list map, all requests and every texts put in: the edited map says of every
character that stays what file the map said. Of overlapping requests each takes what the ones before it left
over. -/
theorem C45_files (m : Slm) (sorted : List Repl) (hm : ∀ n ∈ m, n.Merged) :
    ∃ ets, Attributed (clipped 0 (sorted.map Repl.edit).reverse) ets ∧
      files (piecesMarks ((replaceListMap m sorted).map LNode.piece)) =
        spliceL (files (piecesMarks (m.map LNode.piece))) 0 ets := by
  rw [← replaceListMap_clipped m sorted, ← clipRepls_reverse]
  exact replaced_files m _ hm (by rw [clipRepls_reverse]; exact clipped_leftToRight _ _)

end WS
