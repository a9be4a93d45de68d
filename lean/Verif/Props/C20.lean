import Verif.Props.C12
import Verif.Props.C42
/-! # C20 The identity rewrite of a list map changes nothing observable -/

namespace WS
open Spec

theorem linesMarks_append (src : Int) (step : Nat) : ∀ (a b : Str) (n : Nat),
    linesMarks src step n (a ++ b) =
      linesMarks src step n a ++ linesMarks src step (n + a.count '\n' * step) b
  | [], b, n => by simp [linesMarks]
  | c :: a, b, n => by
    simp only [List.cons_append, linesMarks]
    rw [linesMarks_append src step a b]
    by_cases hc : c = '\n'
    · subst hc
      rw [if_pos rfl, List.count_cons_self, Nat.add_mul]
      have : n + step + a.count '\n' * step = n + (a.count '\n' * step + 1 * step) := by omega
      rw [this]
    · rw [if_neg hc, List.count_cons_of_ne hc]

/-- On one line it does not matter what the lines of a text are attributed to. -/
theorem linesMarks_tidy (src : Int) (step step' n : Nat) : ∀ {b : Str}, '\n' ∉ b.dropLast →
    linesMarks src step n b = linesMarks src step' n b
  | [], _ => rfl
  | [c], _ => rfl
  | c :: d :: b, h => by
    rw [List.dropLast_cons_of_ne_nil (by simp)] at h
    simp only [List.mem_cons, not_or] at h
    have e : ∀ st, linesMarks src st n (c :: d :: b) = (c, some (src, n)) :: linesMarks src st n (d :: b) := by
      intro st; rw [linesMarks, if_neg (Ne.symm h.1)]
    rw [e, e, linesMarks_tidy src step step' n h.2]

/-- Counters tell the truth, and strings that would be dropped are empty; single-line nodes hold one
line. -/
def LNode.Neat : LNode → Prop
  | .str s => s = []
  | .source n => n.numLines = n.code.count '\n' ∧ (n.endsNl = true → n.code.getLast? = some '\n')
  | .single n => n.numLines = n.code.count '\n' ∧ (n.endsNl = true → n.code.getLast? = some '\n') ∧
      '\n' ∉ n.code.dropLast
  | _ => True

/-- After rewriting, single-line nodes may hold more. -/
def LNode.Merged : LNode → Prop
  | .code _ => True
  | .source n => n.numLines = n.code.count '\n' ∧ (n.endsNl = true → n.code.getLast? = some '\n')
  | .single n => n.numLines = n.code.count '\n' ∧ (n.endsNl = true → n.code.getLast? = some '\n')
  | _ => False

/-- One normalized node. -/
def LNode.One : LNode → Prop
  | .code _ => True
  | .single n => n.numLines = n.code.count '\n' ∧ (n.endsNl = true → n.code.getLast? = some '\n') ∧
      '\n' ∉ n.code.dropLast
  | _ => False

theorem endsNl_iff (c : Str) : endsNl c = true ↔ c.getLast? = some '\n' := by simp [endsNl]

theorem normLines_marks (src orig : Option Int) (e : Bool) : ∀ (v : Str) (cur : Nat),
    (e = true → v = [] ∨ v.getLast? = some '\n') →
    piecesMarks ((normLines src orig e cur (splitKeep '\n' v)).map LNode.piece) =
      linesMarks (src.getD (-1)) 1 cur v ∧
    ∀ n ∈ normLines src orig e cur (splitKeep '\n' v), n.One := by
  intro v
  induction v using piece_induction (p := '\n') with
  | base s hs =>
    intro cur he
    rw [splitKeep_of_not_mem hs, normLines]
    split
    · rename_i h
      rcases he h with rfl | h
      · exact ⟨rfl, by intro n hn; cases hn⟩
      · exact absurd (List.mem_of_getLast? h) hs
    · have hd : '\n' ∉ s.dropLast := fun h => hs ((List.dropLast_sublist s).mem h)
      refine ⟨?_, ?_⟩
      · simp only [piecesMarks, List.map_cons, List.map_nil, List.flatten_cons, List.flatten_nil,
          List.append_nil, LNode.piece, LSingle.new, Piece.marks]
        exact linesMarks_tidy _ _ _ _ hd
      · intro n hn
        rw [List.mem_singleton.1 hn]
        exact ⟨rfl, fun h => (endsNl_iff _).1 h, hd⟩
  | step a b ha ih =>
    intro cur he
    rw [splitKeep_append_sep ha]
    obtain ⟨x, xs, hx⟩ : ∃ x xs, splitKeep '\n' b = x :: xs := by
      cases h : splitKeep '\n' b with
      | nil => exact absurd h (splitKeep_ne_nil _ _)
      | cons x xs => exact ⟨x, xs, rfl⟩
    have hn : normLines src orig e cur ((a ++ ['\n']) :: splitKeep '\n' b) =
        .single (LSingle.new (a ++ ['\n']) src orig cur) :: normLines src orig e (cur + 1) (splitKeep '\n' b) := by
      rw [hx, normLines]; simp
    have hd : '\n' ∉ (a ++ ['\n']).dropLast := by simpa using ha
    have he' : e = true → b = [] ∨ b.getLast? = some '\n' := by
      intro h
      by_cases hb : b = []
      · exact .inl hb
      · right
        have := (he h).resolve_left (by simp)
        rw [List.getLast?_append, List.getLast?_cons, List.getLast?_eq_some_getLast hb] at this
        rw [List.getLast?_eq_some_getLast hb]
        simpa using this
    obtain ⟨h1, h2⟩ := ih (cur + 1) he'
    rw [hn]
    refine ⟨?_, ?_⟩
    · have e1 : ∀ (y : LNode) (ys : List LNode), piecesMarks ((y :: ys).map LNode.piece) =
          y.piece.marks ++ piecesMarks (ys.map LNode.piece) := by intro y ys; simp [piecesMarks]
      rw [e1, h1]
      have e2 : a ++ '\n' :: b = (a ++ ['\n']) ++ b := by simp
      rw [e2, linesMarks_append]
      have e3 : (a ++ ['\n']).count '\n' = 1 := by
        rw [List.count_append, List.count_eq_zero.2 ha]; rfl
      rw [e3, Nat.mul_one]
      congr 1
      exact linesMarks_tidy _ _ _ _ hd
    · intro n hn
      rcases List.mem_cons.1 hn with rfl | hn
      · exact ⟨rfl, fun h => (endsNl_iff _).1 h, hd⟩
      · exact h2 n hn

theorem normalized_marks {n : LNode} (hn : n.Neat) :
    piecesMarks (n.normalized.map LNode.piece) = n.piece.marks ∧ ∀ k ∈ n.normalized, k.One := by
  cases n with
  | str s => simp only [LNode.Neat] at hn; subst hn; exact ⟨rfl, by intro k hk; cases hk⟩
  | code s => exact ⟨by simp [LNode.normalized, piecesMarks], by
      intro k hk; rw [List.mem_singleton.1 hk]; trivial⟩
  | source n =>
    exact normLines_marks n.source n.original n.endsNl n.code n.startLine (fun h => .inr (hn.2 h))
  | single n => exact ⟨by simp [LNode.normalized, piecesMarks], by
      intro k hk; rw [List.mem_singleton.1 hk]; exact hn⟩
  | map ch => exact ⟨rfl, by intro k hk; cases hk⟩
  | idx i => exact ⟨rfl, by intro k hk; cases hk⟩

/-- Merging keeps what is said of every character. -/
theorem merge_marks {a b c : LNode} (ha : a.Merged) (hb : b.One) (h : a.merge b = some c) :
    c.Merged ∧ c.piece.marks = a.piece.marks ++ b.piece.marks := by
  have hcount : ∀ x y : Str, (x ++ y).count '\n' = x.count '\n' + y.count '\n' := fun _ _ => List.count_append
  have hlast : ∀ (x : Str) {y : Str}, y.getLast? = some '\n' → (x ++ y).getLast? = some '\n' := by
    intro x y h; rw [List.getLast?_append, h]; rfl
  cases b with
  | code s =>
    cases a with
    | code t =>
      simp only [LNode.merge, Option.some.injEq] at h
      subst h
      exact ⟨trivial, by simp [LNode.piece, Piece.marks]⟩
    | _ => simp [LNode.merge] at h
  | single o =>
    obtain ⟨o1, o2, o3⟩ := hb
    cases a with
    | source n =>
      obtain ⟨n1, n2⟩ := ha
      simp only [LNode.merge, LSource.mergeSingle] at h
      split at h
      · rename_i hc
        obtain ⟨c1, c2, c3, c4⟩ := hc
        simp only [Option.map_some, Option.some.injEq] at h
        subst h
        refine ⟨⟨by simp only [hcount]; omega, fun he => hlast _ (o2 he)⟩, ?_⟩
        simp only [LNode.piece, Piece.marks, linesMarks_append, c1]
        rw [n1] at c3
        rw [Nat.mul_one, c3, linesMarks_tidy _ 1 0 _ o3]
      · cases h
    | single n =>
      obtain ⟨n1, n2⟩ := ha
      simp only [LNode.merge, LSingle.mergeSingle] at h
      split at h
      · rename_i hso
        split at h
        · rename_i hl
          simp only [Option.some.injEq] at h
          subst h
          refine ⟨⟨by simp only [hcount]; omega, fun he => hlast _ (o2 he)⟩, ?_⟩
          simp only [LNode.piece, Piece.marks, linesMarks_append, hso.1]
          rw [Nat.mul_zero, Nat.add_zero, hl]
        · split at h
          · rename_i hc
            simp only [Option.some.injEq] at h
            subst h
            refine ⟨⟨rfl, fun he => (endsNl_iff _).1 he⟩, ?_⟩
            obtain ⟨c1, c2, c3, c4⟩ := hc
            have hl := n2 c2
            have hd : '\n' ∉ n.code.dropLast := by
              intro hmem
              have hne : n.code ≠ [] := by intro h0; rw [h0] at hl; cases hl
              have e := List.dropLast_concat_getLast hne
              rw [List.getLast?_eq_some_getLast hne] at hl
              rw [Option.some.inj hl] at e
              have h2 : 1 ≤ n.code.dropLast.count '\n' := List.count_pos_iff.2 hmem
              have h3 : n.code.count '\n' = n.code.dropLast.count '\n' + 1 := by
                conv => lhs; rw [← e]
                rw [hcount]; rfl
              omega
            simp only [LNode.piece, Piece.marks, LSource.new, linesMarks_append, hso.1]
            have hcnt : n.code.count '\n' = 1 := by omega
            rw [hcnt, Nat.one_mul, c1, linesMarks_tidy _ 1 0 _ hd, linesMarks_tidy _ 1 0 _ o3]
          · cases h
      · cases h
    | _ => simp [LNode.merge] at h
  | _ => exact hb.elim

theorem pushMerge_marks {rev : List LNode} (hr : ∀ n ∈ rev, n.Merged) {n : LNode} (hn : n.One) :
    (∀ k ∈ pushMerge rev (some n), k.Merged) ∧
    piecesMarks ((pushMerge rev (some n)).reverse.map LNode.piece) =
      piecesMarks (rev.reverse.map LNode.piece) ++ n.piece.marks := by
  have hnm : n.Merged := by
    cases n with
    | code s => trivial
    | single x => exact ⟨hn.1, hn.2.1⟩
    | _ => exact hn.elim
  unfold pushMerge
  cases rev with
  | nil =>
    exact ⟨by intro k hk; rw [List.mem_singleton.1 hk]; exact hnm, by simp [piecesMarks]⟩
  | cons last rest =>
    dsimp only
    cases hm : last.merge n with
    | none =>
      refine ⟨?_, by simp [piecesMarks]⟩
      intro k hk
      rcases List.mem_cons.1 hk with rfl | hk
      · exact hnm
      · exact hr k hk
    | some m =>
      obtain ⟨h1, h2⟩ := merge_marks (hr last (by simp)) hn hm
      refine ⟨?_, ?_⟩
      · intro k hk
        rcases List.mem_cons.1 hk with rfl | hk
        · exact h1
        · exact hr k (by simp [hk])
      · simp [piecesMarks, h2]

theorem mapCode_identity {σ : Type} {f : σ → Str → Str × σ} (hf : ∀ st s, (f st s).1 = s) {n : LNode}
    (hn : n.One) (st : σ) : ∃ n' st', n.mapCode f st = (some n', st') ∧ n'.One ∧ n'.piece = n.piece := by
  cases n with
  | code s =>
    refine ⟨.code s, (f st s).2, ?_, trivial, rfl⟩
    simp only [LNode.mapCode, hf]
  | single x =>
    refine ⟨.single (LSingle.new x.code x.source x.original x.line), (f st x.code).2, ?_, ?_, rfl⟩
    · simp only [LNode.mapCode, hf]
    · exact ⟨rfl, fun h => (endsNl_iff _).1 h, hn.2.2⟩
  | _ => exact hn.elim

theorem mapLoop_identity {σ : Type} {f : σ → Str → Str × σ} (hf : ∀ st s, (f st s).1 = s) :
    ∀ (ns : List LNode) (st : σ) (rev : List LNode), (∀ n ∈ rev, n.Merged) → (∀ n ∈ ns, n.One) →
    (∀ n ∈ (mapLoop f st rev ns).1, n.Merged) ∧
    piecesMarks ((mapLoop f st rev ns).1.reverse.map LNode.piece) =
      piecesMarks (rev.reverse.map LNode.piece) ++ piecesMarks (ns.map LNode.piece)
  | [], _, rev, hr, _ => ⟨hr, by simp [mapLoop, piecesMarks]⟩
  | n :: ns, st, rev, hr, hn => by
    obtain ⟨n', st', e1, e2, e3⟩ := mapCode_identity hf (hn n (by simp)) st
    obtain ⟨h1, h2⟩ := pushMerge_marks hr e2
    obtain ⟨h3, h4⟩ := mapLoop_identity hf ns st' _ h1 (fun k hk => hn k (by simp [hk]))
    rw [mapLoop, e1]
    refine ⟨h3, ?_⟩
    rw [h4, h2, e3]
    simp [piecesMarks]

theorem flatten_marks : ∀ (m : Slm), (∀ n ∈ m, n.Neat) →
    piecesMarks ((m.map LNode.normalized).flatten.map LNode.piece) = piecesMarks (m.map LNode.piece) ∧
    ∀ n ∈ (m.map LNode.normalized).flatten, n.One
  | [], _ => ⟨rfl, by intro n hn; cases hn⟩
  | n :: m, h => by
    obtain ⟨h1, h2⟩ := normalized_marks (h n (by simp))
    obtain ⟨h3, h4⟩ := flatten_marks m (fun k hk => h k (by simp [hk]))
    refine ⟨?_, ?_⟩
    · have : ∀ xs ys : List Piece, piecesMarks (xs ++ ys) = piecesMarks xs ++ piecesMarks ys := by
        intro xs ys; simp [piecesMarks]
      rw [List.map_cons, List.flatten_cons, List.map_append, this, h1, h3]
      simp [piecesMarks]
    · intro k hk
      rw [List.map_cons, List.flatten_cons] at hk
      rcases List.mem_append.1 hk with hk | hk
      · exact h2 k hk
      · exact h4 k hk

/-- C20, for list maps whose single-line nodes hold one line and that hold no bare string: rewriting
every piece of code by itself keeps every character and what is said of it. Missing: single-line nodes
with several lines, bare strings and nested list maps, see `C20_not_general`. -/
theorem C20_identity_partial {σ : Type} (f : σ → Str → Str × σ) (hf : ∀ st s, (f st s).1 = s) (st : σ)
    (m : Slm) (hm : ∀ n ∈ m, n.Neat) :
    piecesMarks ((slmMapGenerated f st m).1.map LNode.piece) = piecesMarks (m.map LNode.piece) := by
  obtain ⟨h1, h2⟩ := flatten_marks m hm
  obtain ⟨_, h4⟩ := mapLoop_identity hf _ st [] (by intro n hn; cases hn) h2
  unfold slmMapGenerated
  dsimp only
  rw [h4, h1]
  simp [piecesMarks]

/-- C20, the step: where two nodes are merged, in whatever way, every character keeps what is said of
it. Of the second node a single-line node may hold one line only. -/
theorem C20_merge (a b c : LNode) (ha : a.Merged) (hb : b.Merged) (h1 : ∀ n, b = .single n → b.One)
    (h : a.merge b = some c) : c.Merged ∧ c.piece.marks = a.piece.marks ++ b.piece.marks := by
  cases b with
  | code s => exact merge_marks ha trivial h
  | single o => exact merge_marks ha (h1 o rfl) h
  | source o =>
    cases a with
    | source n =>
      obtain ⟨n1, n2⟩ := ha
      obtain ⟨o1, o2⟩ := hb
      simp only [LNode.merge, LSource.mergeSource] at h
      split at h
      · rename_i hc
        obtain ⟨c1, c2, c3⟩ := hc
        simp only [Option.map_some, Option.some.injEq] at h
        subst h
        refine ⟨⟨by simp only [List.count_append]; omega, fun he => ?_⟩, ?_⟩
        · dsimp only at he ⊢
          rw [List.getLast?_append, o2 he]; rfl
        · simp only [LNode.piece, Piece.marks, linesMarks_append, c1]
          rw [Nat.mul_one, ← c3, n1]
      · cases h
    | _ => simp [LNode.merge] at h
  | _ => exact hb.elim

/-- Two nodes of several lines. -/
example : ((LNode.source (LSource.new "a\nb\n".toList (some 1) none 3)).merge
    (.source (LSource.new "c\nd".toList (some 1) none 5))).map LNode.piece = some (.lines "a\nb\nc\nd".toList 1 3) := by
  decide +kernel

/-- Mapped nodes start at lines numbered from 1. -/
def LNode.Lines1 : LNode → Prop
  | .source n => 1 ≤ n.startLine
  | .single n => 1 ≤ n.line
  | _ => True

theorem built_lines1 {σ : Type} (f : σ → Str → Str × σ) : ∀ (ns : List LNode) (st : σ) (rev : List LNode),
    (∀ n ∈ rev, n.Lines1) → (∀ n ∈ ns, n.Lines1) → ∀ n ∈ (mapLoop f st rev ns).1, n.Lines1
  | [], _, _, h, _ => h
  | n :: ns, st, rev, h, hn => by
    have h1 := hn n (by simp)
    have h2 : ∀ k, (n.mapCode f st).1 = some k → k.Lines1 := by
      intro k hk
      cases n with
      | code s => simp only [LNode.mapCode, Option.some.injEq] at hk; rw [← hk]; trivial
      | single x => simp only [LNode.mapCode, Option.some.injEq] at hk; rw [← hk]; exact h1
      | _ => simp [LNode.mapCode] at hk
    have hmerge : ∀ a b c : LNode, a.Lines1 → b.Lines1 → a.merge b = some c → c.Lines1 := by
      intro a b c ha hb hc
      unfold LNode.merge at hc
      split at hc
      · cases hc; trivial
      · unfold LSource.mergeSource at hc
        split at hc <;> cases hc
        exact ha
      · unfold LSource.mergeSingle at hc
        split at hc <;> cases hc
        exact ha
      · unfold LSingle.mergeSingle at hc
        split at hc
        · split at hc
          · cases hc; exact ha
          · split at hc <;> cases hc
            exact ha
        · cases hc
      · cases hc
    have key : ∀ k ∈ pushMerge rev (n.mapCode f st).1, k.Lines1 := ?_
    · rw [mapLoop]
      exact built_lines1 f ns _ _ key (fun k hk => hn k (by simp [hk]))
    cases ho : (n.mapCode f st).1 with
    | none => exact h
    | some k =>
      unfold pushMerge
      dsimp only
      cases rev with
      | nil => intro x hx; rw [List.mem_singleton.1 hx]; exact h2 k ho
      | cons last rest =>
        dsimp only
        split
        · rename_i c hc
          intro x hx
          rcases List.mem_cons.1 hx with rfl | hx
          · exact hmerge _ _ _ (h last (by simp)) (h2 k ho) hc
          · exact h x (by simp [hx])
        · intro x hx
          rcases List.mem_cons.1 hx with rfl | hx
          · exact h2 x ho
          · exact h x hx

theorem normalized_lines1 {n : LNode} (h : n.Lines1) : ∀ k ∈ n.normalized, k.Lines1 := by
  intro k hk
  cases n with
  | source n =>
    obtain ⟨l, j, rfl, hj⟩ := normLines_mem hk
    exact Nat.le_trans h hj
  | code s => rw [List.mem_singleton.1 hk]; trivial
  | single x => rw [List.mem_singleton.1 hk]; exact h
  | _ => simp [LNode.normalized] at hk

/-- C20 for the rendered map: before and after, text and attribution of every character are the
same. -/
theorem C20_rendered_partial {σ : Type} (f : σ → Str → Str × σ) (hf : ∀ st s, (f st s).1 = s) (st : σ)
    (m : Slm) (file : Option Int) (hm : ∀ n ∈ m, n.Neat) (hl : ∀ n ∈ m, n.Lines1 ∧ ∀ s, n ≠ .str s) :
    (slmToStringWithSourceMap (slmMapGenerated f st m).1 file).source =
      (slmToStringWithSourceMap m file).source ∧
    ∃ ps ps' ms, mapPoints (slmToStringWithSourceMap m file).map = some ps ∧
      mapPoints (slmToStringWithSourceMap (slmMapGenerated f st m).1 file).map = some ps' ∧
      ms.map Prod.fst = (slmToStringWithSourceMap m file).source ∧
      AttributesB ps (1, 0) ms ∧ AttributesB ps' (1, 0) ms := by
  have hid := C20_identity_partial f hf st m hm
  have hok : ∀ n ∈ m, n.Ok := by
    intro n hn
    have h1 := hm n hn
    have h2 := hl n hn
    cases n with
    | str s => exact absurd rfl (h2.2 s)
    | source x => exact ⟨h1.1, fun _ => h2.1⟩
    | single x => exact ⟨h1.1, fun _ => h2.1⟩
    | _ => trivial
  obtain ⟨_, f2⟩ := flatten_marks m hm
  obtain ⟨h3, _⟩ := mapLoop_identity hf _ st [] (by intro n hn; cases hn) f2
  have hok' : ∀ n ∈ (slmMapGenerated f st m).1, n.Ok := by
    intro n hn
    unfold slmMapGenerated at hn
    dsimp only at hn
    rw [List.mem_reverse] at hn
    have h1 := h3 n hn
    have h2 := built_lines1 f (m.map LNode.normalized).flatten st [] (by intro k hk; cases hk) (by
      intro k hk
      simp only [List.mem_flatten, List.mem_map] at hk
      obtain ⟨_, ⟨a, ha, rfl⟩, hka⟩ := hk
      exact normalized_lines1 (hl a ha).1 k hka) n hn
    cases n with
    | source x => exact ⟨h1.1, fun _ => h2⟩
    | single x => exact ⟨h1.1, fun _ => h2⟩
    | code s => trivial
    | _ => exact h1.elim
  have t1 := (C12_segments_partial m file hok).2
  have t2 := (C12_segments_partial _ file hok').2
  obtain ⟨ps, a1, a2⟩ := C12_lookup_partial m file hok
  obtain ⟨ps', b1, b2⟩ := C12_lookup_partial _ file hok'
  rw [hid] at b2
  refine ⟨?_, ps, ps', _, a1, b1, ?_, a2, b2⟩
  · rw [t1, t2, ← piecesMarks_fst, ← piecesMarks_fst, hid]
  · rw [shown_fst, t1, piecesMarks_fst]

/-- C20 fails in general: a single-line node with two lines merges with the node before it as if its
second line came from the next line (`src/source_list_map/single_line_node.rs:56-72`), and bare strings
are dropped (`source_list_map.rs:119-132`). -/
theorem C20_not_general :
    piecesMarks ((slmMapGenerated (fun (u : Unit) s => (s, u)) ()
      [.single (LSingle.new "x\n".toList (some 1) none 1), .single (LSingle.new "a\nb".toList (some 1) none 2)]).1.map
        LNode.piece) =
      [('x', some (1, 1)), ('\n', some (1, 1)), ('a', some (1, 2)), ('\n', some (1, 2)), ('b', some (1, 3))] ∧
    piecesMarks ([.single (LSingle.new "x\n".toList (some 1) none 1),
      .single (LSingle.new "a\nb".toList (some 1) none 2)].map LNode.piece) =
      [('x', some (1, 1)), ('\n', some (1, 1)), ('a', some (1, 2)), ('\n', some (1, 2)), ('b', some (1, 2))] ∧
    slmText (slmMapGenerated (fun (u : Unit) s => (s, u)) () [.str "lost".toList]).1 = [] := by
  decide +kernel

/-! Non-trivial case: nodes are split, and merged differently. -/

/-- Two mapped nodes that continue each other. -/
def C20_sample : Slm :=
  [.source (LSource.new "a\nb\n".toList (some 1) none 3), .single (LSingle.new "c".toList (some 1) none 5),
    .code "x".toList, .code "y\n".toList, .source (LSource.new "d\n".toList (some 2) none 1)]

example : ∀ n ∈ C20_sample, n.Neat ∧ n.Lines1 := by
  intro n hn
  simp only [C20_sample, List.mem_cons, List.not_mem_nil, or_false] at hn
  rcases hn with rfl | rfl | rfl | rfl | rfl <;> simp [LNode.Neat, LNode.Lines1, LSource.new, LSingle.new, numberOfLines, endsNl]
example : (slmMapGenerated (fun (u : Unit) s => (s, u)) () C20_sample).1.map LNode.piece =
    [.lines "a\nb\nc".toList 1 3, .plain "xy\n".toList, .single "d\n".toList 2 1] := by decide +kernel

end WS
