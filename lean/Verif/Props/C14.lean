import Verif.Props.C13
import Verif.Props.C20
/-! # C14 Reading code plus map into a list map keeps each line's origin -/

namespace WS
open Spec

/-- Source and line of the first point of generated line `i` that has them. -/
def Spec.lineFirst (ps : List Point) (i : Nat) : Option (Int × Nat) :=
  ((ps.filter fun p => p.line = i).findSome? Point.origin).map fun o => (o.source, o.line)

/-- The attribution of lines, the first of them being line `i`: a line goes with what `org` says of it;
if nothing is said and it is blank, it continues the line before it, if that is attributed (`prev` says
what the next line would be). -/
def Spec.follow (blank : List Char → Bool) (org : Nat → Option (Int × Nat)) :
    Nat → Option (Int × Nat) → List (List Char) → LineMarked
  | _, _, [] => []
  | i, prev, l :: ls =>
    let a := (org i).or (if blank l then prev else none)
    l.map (fun c => (c, a)) ++ follow blank org (i + 1) (a.map fun x => (x.1, x.2 + 1)) ls

theorem follow_congr {blank : List Char → Bool} {o o' : Nat → Option (Int × Nat)} : ∀ (ls : List Str) (i : Nat)
    (prev : Option (Int × Nat)), (∀ j, i ≤ j → o j = o' j) → follow blank o i prev ls = follow blank o' i prev ls
  | [], _, _, _ => rfl
  | l :: ls, i, prev, h => by
    simp only [follow]
    rw [h i (Nat.le_refl _), follow_congr ls (i + 1) _ (fun j hj => h j (by omega))]

theorem follow_none {blank : List Char → Bool} : ∀ (ls : List Str) (i : Nat),
    follow blank (fun _ => none) i none ls = ls.flatten.map fun c => (c, none)
  | [], _ => rfl
  | l :: ls, i => by
    simp only [follow, ite_self, Option.or_none, Option.map_none]
    rw [follow_none ls, List.flatten_cons, List.map_append]

/-! ## The segments of one line -/

/-- The numbers of the reader that a segment changes. -/
def upd (st : LfState) (b : Spec.Acc) : LfState :=
  { st with curLine := b.line + 1, curSource := b.source.toNat }

/-- The reader's numbers are those of the format. -/
def Same (st : LfState) (a : Spec.Acc) : Prop := st.curLine = a.line + 1 ∧ (st.curSource : Int) = a.source

theorem lfAddSource_upd (st : LfState) (b : Spec.Acc) (line : Str) (s o : Option Int) (l : Nat) :
    upd (lfAddSource st line s o l) b = lfAddSource (upd st b) line s o l := by
  unfold lfAddSource upd
  dsimp only
  split
  · split <;> rfl
  · rfl

theorem lfAddSource_same {st : LfState} {a : Spec.Acc} (h : Same st a) (line : Str) (s o : Option Int) (l : Nat) :
    Same (lfAddSource st line s o l) a := by
  unfold lfAddSource
  split
  · split <;> exact h
  · exact h

theorem lfAddCode_same {st : LfState} {a : Spec.Acc} (h : Same st a) (code : Str) : Same (lfAddCode st code) a := by
  unfold lfAddCode
  split
  · exact h
  · split <;> exact h
  · exact h

theorem toUsize_nat {i : Int} {n : Nat} (h : i = n) (hn : n < 4294967296) : toUsize i = n := by
  unfold toUsize; omega

theorem upd_upd (st : LfState) (a b : Spec.Acc) : upd (upd st a) b = upd st b := rfl

theorem upd_same {st : LfState} {a : Spec.Acc} (h : Same st a) : upd st a = st := by
  obtain ⟨r, c, s, n⟩ := st
  obtain ⟨h1, h2⟩ := h
  simp only at h1 h2
  simp only [upd, LfState.mk.injEq, true_and]
  refine ⟨h1.symm, ?_, trivial⟩
  omega

/-- One segment: nothing but the numbers changes, unless it is the first with an origin. -/
theorem seg_run {ss ns contents : List Int} (hss : ss.length ≤ 4294967296) {line x : Str} {i : Nat} {a b : Spec.Acc}
    {y : List Seg} {xs : List Int} (hx : fields x = some xs) (hr : readSeg i a x = some (y, b)) {ps : List Point}
    (hp : resolveAll ss ns y = some ps)
    (hsm : ∀ p ∈ ps, ∀ o, p.origin = some o → o.line < 4294967296) {st : LfState} (hst : Same st a) (added : Bool) :
    Same (upd st b) b ∧ (∀ p ∈ ps, p.line = i ∧ ∀ o, p.origin = some o → 1 ≤ o.line) ∧
    match ps.findSome? Point.origin with
    | none => segEffect ss contents line xs added st = (added, upd st b)
    | some o => if added then segEffect ss contents line xs added st = (true, upd st b)
      else ∃ orig, segEffect ss contents line xs added st =
        (true, lfAddSource (upd st b) line (some o.source) orig o.line) := by
  unfold readSeg at hr
  rw [hx] at hr
  have hid : upd st a = st := upd_same hst
  have many : ∀ (c s ol oc : Int) (n : Option Int) (rest : List Int) (b : Spec.Acc), xs = c :: s :: ol :: rest →
      y = [⟨i, a.col + c, some (a.source + s, a.line + ol, a.origCol + oc, n)⟩] →
      b.source = a.source + s → b.line = a.line + ol →
      Same (upd st b) b ∧ (∀ p ∈ ps, p.line = i ∧ ∀ o, p.origin = some o → 1 ≤ o.line) ∧
      match ps.findSome? Point.origin with
      | none => segEffect ss contents line xs added st = (added, upd st b)
      | some o => if added then segEffect ss contents line xs added st = (true, upd st b)
        else ∃ orig, segEffect ss contents line xs added st =
          (true, lfAddSource (upd st b) line (some o.source) orig o.line) := by
    intro c s ol oc n rest b hxs hy hb1 hb2
    subst hxs hy
    obtain ⟨p, src, ln, hps, horg, hsrc, hln, hpl, hoc⟩ : ∃ p src ln, ps = [p] ∧
        (∃ oc' nm, p.origin = some ⟨src, ln, oc', nm⟩) ∧ at? ss (a.source + s) = some src ∧
        a.line + ol + 1 = (ln : Int) ∧ p.line = i ∧ 1 ≤ ln := by
      simp only [resolveAll, Seg.resolve] at hp
      cases hc : nat? (a.col + c) with
      | none => rw [hc] at hp; cases hp
      | some gc =>
      cases hs : at? ss (a.source + s) with
      | none => simp only [hc, hs] at hp; cases hp
      | some src =>
      cases hl : nat? (a.line + ol) with
      | none => simp only [hc, hs, hl] at hp; cases hp
      | some gl =>
      have hgl := nat?_some hl
      cases ho : nat? (a.origCol + oc) with
      | none => simp only [hc, hs, hl, ho] at hp; cases hp
      | some go =>
        cases n with
        | none =>
          simp only [hc, hs, hl, ho] at hp
          cases hp
          exact ⟨_, src, gl + 1, rfl, ⟨go, none, rfl⟩, rfl, by omega, rfl, by omega⟩
        | some n =>
          cases hn : at? ns n with
          | none => simp only [hc, hs, hl, ho, hn] at hp; cases hp
          | some nm =>
            simp only [hc, hs, hl, ho, hn] at hp
            cases hp
            exact ⟨_, src, gl + 1, rfl, ⟨go, some nm, rfl⟩, rfl, by omega, rfl, by omega⟩
    obtain ⟨oc', nm, horg⟩ := horg
    obtain ⟨si, hsi, hget⟩ := at?_some hsrc
    have hsil : si < ss.length := (List.getElem?_eq_some_iff.1 hget).1
    subst hps
    have hlt := hsm p (by simp) _ horg
    simp only at hlt
    obtain ⟨q1, q2⟩ := hst
    refine ⟨⟨rfl, ?_⟩, ?_, ?_⟩
    · simp only [upd]; omega
    · intro p' hp'
      rw [List.mem_singleton.1 hp']
      refine ⟨hpl, fun o ho => ?_⟩
      rw [horg] at ho; cases ho; exact hoc
    · simp only [List.findSome?_cons, horg]
      have e1 : toUsize (s + st.curSource) = si := toUsize_nat (by omega) (by omega)
      have e2 : toUsize (ol + st.curLine) = ln := toUsize_nat (by omega) (by omega)
      have e3 : b.source.toNat = si := by omega
      have e4 : b.line + 1 = ol + st.curLine := by omega
      cases added with
      | true => simp only [segEffect, if_true, upd, e1, e3, e4]
      | false =>
        simp only [segEffect, Bool.false_eq_true, if_false, upd, e1, e2, e3, e4, hget]
        exact ⟨_, rfl⟩
  split at hr
  · rename_i h; cases h; cases hr
    simp only [resolveAll, Option.some.injEq] at hp
    subst hp
    refine ⟨by rw [hid]; exact hst, by simp, ?_⟩
    simp only [List.findSome?_nil, segEffect, hid]
  · rename_i c h; cases h; cases hr
    simp only [resolveAll, Seg.resolve] at hp
    cases hc : nat? (a.col + c) with
    | none => rw [hc] at hp; cases hp
    | some gc =>
      rw [hc] at hp
      cases hp
      have hid' : upd st { a with col := a.col + c } = st := hid
      refine ⟨by rw [hid']; exact hst, ?_, ?_⟩
      · intro p hp; rw [List.mem_singleton.1 hp]; exact ⟨rfl, fun o ho => by cases ho⟩
      · simp only [List.findSome?_cons, List.findSome?_nil, segEffect, hid']
  · rename_i c s ol oc h; cases h; cases hr
    exact many c s ol oc none [oc] _ rfl rfl rfl rfl
  · rename_i c s ol oc n h; cases h; cases hr
    exact many c s ol oc (some (a.name + n)) [oc, n] _ rfl rfl rfl rfl
  · cases hr

/-- The segments of a line. -/
theorem segs_run {ss ns contents : List Int} (hss : ss.length ≤ 4294967296) {line : Str} {i : Nat} :
    ∀ {strs : List Str} {a b : Spec.Acc} {y : List Seg} {xss : List (List Int)}, strs.map fields = xss.map some →
    readSegs i a strs = some (y, b) → ∀ {ps : List Point}, resolveAll ss ns y = some ps →
    (∀ p ∈ ps, ∀ o, p.origin = some o → o.line < 4294967296) → ∀ {st : LfState}, Same st a → ∀ (added : Bool),
    Same (upd st b) b ∧ (∀ p ∈ ps, p.line = i ∧ ∀ o, p.origin = some o → 1 ≤ o.line) ∧
    match ps.findSome? Point.origin with
    | none => segsEffect ss contents line xss added st = (added, upd st b)
    | some o => if added then segsEffect ss contents line xss added st = (true, upd st b)
      else ∃ orig, segsEffect ss contents line xss added st =
        (true, lfAddSource (upd st b) line (some o.source) orig o.line)
  | [], a, b, y, xss, hx, hr, ps, hp, hsm, st, hst, added => by
    simp only [readSegs, Option.some.injEq, Prod.mk.injEq] at hr
    obtain ⟨rfl, rfl⟩ := hr
    simp only [resolveAll, Option.some.injEq] at hp
    subst hp
    cases xss with
    | cons xs xss => simp at hx
    | nil =>
      have hid := upd_same hst
      rw [hid]
      exact ⟨hst, by simp, by simp [segsEffect]⟩
  | x :: strs, a, b, y, xss, hx, hr, ps, hp, hsm, st, hst, added => by
    cases xss with
    | nil => simp at hx
    | cons xs xss =>
    simp only [List.map_cons, List.cons.injEq] at hx
    obtain ⟨hx1, hx2⟩ := hx
    rw [readSegs] at hr
    split at hr
    · cases hr
    · rename_i y1 a1 e1
      split at hr
      · cases hr
      · rename_i y2 a2 e2
        cases hr
        obtain ⟨p1, p2, r1, r2, rfl⟩ := resolveAll_append hp
        have s1 := seg_run (contents := contents) (line := line) hss hx1 e1 r1
          (fun p hp => hsm p (List.mem_append_left _ hp)) hst added
        obtain ⟨q1, q2, q3⟩ := s1
        have go := fun (st' : LfState) (h : Same st' a1) (ad : Bool) =>
          segs_run (contents := contents) (line := line) (added := ad) (st := st') hss hx2 e2 r2
            (fun p hp => hsm p (List.mem_append_right _ hp)) h
        have t := go _ q1 added
        rw [upd_upd] at t
        obtain ⟨t1, t2, t3⟩ := t
        refine ⟨t1, ?_, ?_⟩
        · intro p hp
          rcases List.mem_append.1 hp with hp | hp
          · exact q2 p hp
          · exact t2 p hp
        · rw [List.findSome?_append]
          simp only [segsEffect]
          cases hf : p1.findSome? Point.origin with
          | none =>
            rw [hf] at q3
            dsimp only at q3
            rw [q3]
            simpa using t3
          | some o =>
            rw [hf] at q3
            dsimp only [Option.some_or] at q3 ⊢
            cases added with
            | true =>
              simp only [if_true] at q3 ⊢
              rw [q3]
              dsimp only
              have t3' := (go _ q1 true).2.2
              rw [upd_upd] at t3'
              revert t3'
              cases p2.findSome? Point.origin with
              | none => exact id
              | some o' => simp
            | false =>
              simp only [Bool.false_eq_true, if_false] at q3 ⊢
              obtain ⟨orig, q3⟩ := q3
              refine ⟨orig, ?_⟩
              rw [q3]
              dsimp only
              have t3' := (go _ (lfAddSource_same q1 line (some o.source) orig o.line) true).2.2
              rw [lfAddSource_upd, upd_upd] at t3'
              revert t3'
              cases p2.findSome? Point.origin with
              | none => exact id
              | some o' => simp

/-! ## The lines -/

/-- What may be in a list map made by reading, lines being numbered from `k`. -/
def LNode.ReadFrom (k : Nat) : LNode → Prop
  | .code _ => True
  | .source n => k ≤ n.startLine
  | _ => False

/-- What may be in a list map made by reading. -/
abbrev LNode.Read (n : LNode) : Prop := n.ReadFrom 1

/-- What the last node says of the next line. -/
def LastSays (st : LfState) (prev : Option (Int × Nat)) : Prop :=
  match st.rev with
  | .source n :: _ => prev = some (n.source.getD (-1), st.nodeLine) ∧
      n.startLine + n.code.count '\n' = st.nodeLine
  | _ => prev = none

/-- The marks so far. -/
def LfState.marks (st : LfState) : LineMarked := piecesMarks (st.rev.reverse.map LNode.piece)

theorem piecesMarks_append (a b : List Piece) : piecesMarks (a ++ b) = piecesMarks a ++ piecesMarks b := by
  simp [piecesMarks]

theorem linesMarks_const (src : Int) (n : Nat) : ∀ l : Str, linesMarks src 0 n l = l.map fun c => (c, some (src, n))
  | [] => rfl
  | c :: l => by
    rw [linesMarks, Nat.add_zero, ite_self, linesMarks_const src n l]; rfl

theorem marks_push (st : LfState) (n : LNode) :
    LfState.marks { st with rev := n :: st.rev } = st.marks ++ n.piece.marks := by
  simp [LfState.marks, piecesMarks]

/-- One line of code. -/
structure OneLine (l : Str) : Prop where
  tidy : '\n' ∉ l.dropLast

theorem lines_append_marks (src : Int) (start : Nat) (code l : Str) (h : '\n' ∉ l.dropLast) :
    linesMarks src 1 start (code ++ l) =
      linesMarks src 1 start code ++ l.map fun c => (c, some (src, start + code.count '\n')) := by
  rw [linesMarks_append, Nat.mul_one, linesMarks_tidy src 1 0 _ h, linesMarks_const]

theorem addCode_step {from_ : Nat} {st : LfState} {prev : Option (Int × Nat)} (hl : LastSays st prev)
    (hr : ∀ n ∈ st.rev, n.ReadFrom from_) {l : Str} (h : '\n' ∉ l.dropLast) :
    (lfAddCode st l).marks = st.marks ++ l.map (fun c => (c, if isBlank l then prev else none)) ∧
    (∀ n ∈ (lfAddCode st l).rev, n.ReadFrom from_) ∧
    (l.count '\n' = 1 →
      LastSays (lfAddCode st l) ((if isBlank l then prev else none).map fun x => (x.1, x.2 + 1))) := by
  obtain ⟨rev, cl, cs, nl⟩ := st
  have push : ∀ (hp : (if isBlank l then prev else none) = none),
      LfState.marks ⟨.code l :: rev, cl, cs, nl⟩ = LfState.marks ⟨rev, cl, cs, nl⟩ ++
        l.map (fun c => (c, if isBlank l then prev else none)) ∧
      (∀ n ∈ LNode.code l :: rev, n.ReadFrom from_) ∧
      (l.count '\n' = 1 → LastSays ⟨.code l :: rev, cl, cs, nl⟩
        ((if isBlank l then prev else none).map fun x => (x.1, x.2 + 1))) := by
    intro hp
    rw [hp]
    refine ⟨?_, ?_, fun _ => rfl⟩
    · simp [LfState.marks, piecesMarks, LNode.piece, Piece.marks]
    · intro n hn
      rcases List.mem_cons.1 hn with rfl | hn
      · trivial
      · exact hr n hn
  unfold lfAddCode
  cases rev with
  | nil => exact push (by simp only [LastSays] at hl; rw [hl]; simp)
  | cons last rest =>
    cases last with
    | code s =>
      simp only [LastSays] at hl
      subst hl
      refine ⟨?_, ?_, ?_⟩
      · simp [LfState.marks, piecesMarks, LNode.piece, Piece.marks]
      · intro n hn
        rcases List.mem_cons.1 hn with rfl | hn
        · trivial
        · exact hr n (by simp [hn])
      · intro _; simp [LastSays]
    | source n =>
      simp only [LastSays] at hl
      obtain ⟨h1, h2⟩ := hl
      dsimp only
      by_cases hb : isBlank l = true
      · rw [if_pos hb, if_pos hb, h1]
        refine ⟨?_, ?_, ?_⟩
        · simp only [LfState.marks, List.reverse_cons, List.map_append, List.map_cons, List.map_nil,
            piecesMarks_append, LNode.piece, LSource.addCode]
          simp only [piecesMarks, List.map_cons, List.map_nil, List.flatten_cons, List.flatten_nil,
            List.append_nil, Piece.marks, lines_append_marks _ _ _ _ h, h2, List.append_assoc]
        · intro k hk
          rcases List.mem_cons.1 hk with rfl | hk
          · exact (hr (.source n) (by simp) : from_ ≤ n.startLine)
          · exact hr k (by simp [hk])
        · intro hc
          refine ⟨rfl, ?_⟩
          simp only [LSource.addCode, List.count_append]
          omega
      · rw [if_neg hb]
        exact push (by rw [if_neg hb])
    | str s => exact (hr _ (List.mem_cons_self)).elim
    | single s => exact (hr _ (List.mem_cons_self)).elim
    | map s => exact (hr _ (List.mem_cons_self)).elim
    | idx s => exact (hr _ (List.mem_cons_self)).elim

theorem addSource_step {from_ : Nat} {st : LfState} {prev : Option (Int × Nat)} (hl : LastSays st prev)
    (hr : ∀ n ∈ st.rev, n.ReadFrom from_) {l : Str} (h : '\n' ∉ l.dropLast) (src : Option Int) (orig : Option Int) {ln : Nat}
    (hln : from_ ≤ ln) :
    (lfAddSource st l src orig ln).marks = st.marks ++ l.map (fun c => (c, some (src.getD (-1), ln))) ∧
    (∀ n ∈ (lfAddSource st l src orig ln).rev, n.ReadFrom from_) ∧
    (l.count '\n' = 1 → LastSays (lfAddSource st l src orig ln) (some (src.getD (-1), ln + 1))) := by
  obtain ⟨rev, cl, cs, nl⟩ := st
  have push : LfState.marks ⟨.source (LSource.new l src orig ln) :: rev, cl, cs, ln + 1⟩ =
        LfState.marks ⟨rev, cl, cs, nl⟩ ++ l.map (fun c => (c, some (src.getD (-1), ln))) ∧
      (∀ n ∈ LNode.source (LSource.new l src orig ln) :: rev, n.ReadFrom from_) ∧
      (l.count '\n' = 1 → LastSays ⟨.source (LSource.new l src orig ln) :: rev, cl, cs, ln + 1⟩
        (some (src.getD (-1), ln + 1))) := by
    refine ⟨?_, ?_, ?_⟩
    · simp only [LfState.marks, List.reverse_cons, List.map_append, List.map_cons, List.map_nil,
        piecesMarks_append, LNode.piece, LSource.new]
      simp only [piecesMarks, List.map_cons, List.map_nil, List.flatten_cons, List.flatten_nil,
        List.append_nil, Piece.marks]
      rw [linesMarks_tidy (src.getD (-1)) 1 0 _ h, linesMarks_const]
    · intro n hn
      rcases List.mem_cons.1 hn with rfl | hn
      · exact hln
      · exact hr n hn
    · intro hc
      exact ⟨rfl, by simp only [LSource.new]; omega⟩
  unfold lfAddSource
  cases rev with
  | nil => exact push
  | cons last rest =>
    cases last with
    | source n =>
      dsimp only
      by_cases hb : n.source = src ∧ nl = ln
      · rw [if_pos hb]
        simp only [LastSays] at hl
        obtain ⟨h1, h2⟩ := hl
        obtain ⟨b1, b2⟩ := hb
        subst b2
        refine ⟨?_, ?_, ?_⟩
        · simp only [LfState.marks, List.reverse_cons, List.map_append, List.map_cons, List.map_nil,
            piecesMarks_append, LNode.piece, LSource.addCode, b1]
          simp only [piecesMarks, List.map_cons, List.map_nil, List.flatten_cons, List.flatten_nil,
            List.append_nil, Piece.marks, lines_append_marks _ _ _ _ h, h2, List.append_assoc]
        · intro k hk
          rcases List.mem_cons.1 hk with rfl | hk
          · exact (hr (.source n) (by simp) : from_ ≤ n.startLine)
          · exact hr k (by simp [hk])
        · intro hc
          refine ⟨by simp [LSource.addCode, b1], ?_⟩
          simp only [LSource.addCode, List.count_append]
          omega
      · rw [if_neg hb]; exact push
    | code s => exact push
    | str s => exact push
    | single s => exact push
    | map s => exact push
    | idx s => exact push

/-- One line with its mapping line. -/
theorem line_step {ss ns contents : List Int} (hss : ss.length ≤ 4294967296) {i : Nat} {a b : Spec.Acc}
    {y : List Seg} {mp : Str} (hr : readSegs i { a with col := 0 } (cut ',' mp) = some (y, b)) {ps : List Point}
    (hp : resolveAll ss ns y = some ps)
    (hsm : ∀ p ∈ ps, ∀ o, p.origin = some o → o.line < 4294967296) {st : LfState} (hst : Same st a)
    {prev : Option (Int × Nat)} (hl : LastSays st prev) (hrd : ∀ n ∈ st.rev, n.Read) {l : Str}
    (h : '\n' ∉ l.dropLast) (at_ : Option (Int × Nat))
    (hat : at_ = (((ps.findSome? Point.origin).map fun o => (o.source, o.line)).or
      (if isBlank l then prev else none))) :
    ∃ st', lfLine ss contents st l mp = .ok st' ∧ Same st' b ∧ (∀ p ∈ ps, p.line = i) ∧
      st'.marks = st.marks ++ l.map (fun c => (c, at_)) ∧ (∀ n ∈ st'.rev, n.Read) ∧
      (l.count '\n' = 1 → LastSays st' (at_.map fun x => (x.1, x.2 + 1))) := by
  have hst0 : Same st { a with col := 0 } := hst
  unfold lfLine
  by_cases hm : mp = []
  · subst hm
    simp only [List.isEmpty_nil, if_true]
    have hc : cut ',' ([] : Str) = [[]] := rfl
    rw [hc] at hr
    simp only [readSegs, readSeg, fields_nil, Option.some.injEq, Prod.mk.injEq] at hr
    obtain ⟨rfl, rfl⟩ := hr
    simp only [List.append_nil, resolveAll, Option.some.injEq] at hp
    subst hp
    simp only [List.findSome?_nil, Option.map_none, Option.none_or] at hat
    subst hat
    obtain ⟨h1, h2, h3⟩ := addCode_step hl hrd h
    exact ⟨_, rfl, lfAddCode_same hst0 _, by simp, h1, h2, h3⟩
  · have hme : mp.isEmpty = false := by simpa using hm
    rw [hme]
    simp only [Bool.false_eq_true, if_false]
    obtain ⟨xss, hx⟩ := readSegs_fields hr
    rw [lfSegments_eq mp xss mp.length false st (Nat.le_refl _) hx]
    obtain ⟨q1, q2, q3⟩ := segs_run (contents := contents) (line := l) hss hx hr hp hsm hst0 false
    dsimp only
    have hl' : LastSays (upd st b) prev := hl
    cases hf : ps.findSome? Point.origin with
    | none =>
      rw [hf] at q3 hat
      dsimp only at q3
      simp only [Option.map_none, Option.none_or] at hat
      subst hat
      rw [q3]
      simp only [Bool.false_eq_true, if_false]
      obtain ⟨h1, h2, h3⟩ := addCode_step hl' hrd h
      exact ⟨_, rfl, lfAddCode_same q1 _, fun p hp => (q2 p hp).1, h1, h2, h3⟩
    | some o =>
      rw [hf] at q3 hat
      simp only [Bool.false_eq_true, if_false] at q3
      simp only [Option.map_some, Option.some_or] at hat
      subst hat
      obtain ⟨orig, q3⟩ := q3
      rw [q3]
      simp only [if_true]
      obtain ⟨p, hp1, hp2⟩ := List.exists_of_findSome?_eq_some hf
      obtain ⟨h1, h2, h3⟩ := addSource_step hl' hrd h (some o.source) orig ((q2 p hp1).2 o hp2)
      exact ⟨_, rfl, lfAddSource_same q1 _ _ _ _, fun p hp => (q2 p hp).1, h1, h2, h3⟩

/-- Pieces of a text cut after newlines. -/
def CodeLines : List Str → Prop
  | [] => True
  | [l] => '\n' ∉ l
  | l :: ls => (∃ x, l = x ++ ['\n'] ∧ '\n' ∉ x) ∧ CodeLines ls

theorem CodeLines.cons {l l' : Str} {ls : List Str} (h : CodeLines (l :: l' :: ls)) :
    (∃ x, l = x ++ ['\n'] ∧ '\n' ∉ x) ∧ CodeLines (l' :: ls) := h

theorem codeLines_splitKeep (s : Str) : CodeLines (splitKeep '\n' s) := by
  induction s using piece_induction (p := '\n') with
  | base s hs => rw [splitKeep_of_not_mem hs]; exact hs
  | step x r hx ih =>
    rw [splitKeep_append_sep hx]
    cases h : splitKeep '\n' r with
    | nil => exact absurd h (splitKeep_ne_nil _ _)
    | cons l ls => rw [h] at ih; exact ⟨⟨x, rfl, hx⟩, ih⟩

theorem CodeLines.tidy {l : Str} {ls : List Str} (h : CodeLines (l :: ls)) : '\n' ∉ l.dropLast := by
  cases ls with
  | nil => exact fun hm => h ((List.dropLast_sublist l).mem hm)
  | cons l' ls =>
    obtain ⟨⟨x, rfl, hx⟩, _⟩ := h
    simpa using hx

theorem CodeLines.tail {l : Str} {ls : List Str} (h : CodeLines (l :: ls)) : CodeLines ls := by
  cases ls with
  | nil => trivial
  | cons l' ls => exact h.2

theorem CodeLines.count {l l' : Str} {ls : List Str} (h : CodeLines (l :: l' :: ls)) : l.count '\n' = 1 := by
  obtain ⟨⟨x, rfl, hx⟩, _⟩ := h
  rw [List.count_append, List.count_eq_zero.2 hx]; rfl

theorem isBlank_nl (l : Str) : isBlank ('\n' :: l) = isBlank l := by
  have : isWs '\n' = true := by decide
  simp [isBlank, this]

/-- The lines behind the last mapping line. -/
theorem rest_marks {from_ : Nat} : ∀ (ls : List Str) (st : LfState) (prev : Option (Int × Nat)) (i : Nat),
    CodeLines ls → LastSays st prev → (∀ n ∈ st.rev, n.ReadFrom from_) →
    (lfRest st ls).marks = st.marks ++ follow isBlank (fun _ => none) i prev ls ∧
    ∀ n ∈ (lfRest st ls).rev, n.ReadFrom from_
  | [], st, prev, i, _, _, hr => ⟨by simp [lfRest, follow], hr⟩
  | l :: ls, st, prev, i, hls, hl, hr => by
    have htidy := hls.tidy
    rw [lfRest, isBlank_nl]
    by_cases hb : isBlank l = true
    · rw [if_pos hb]
      obtain ⟨h1, h2, h3⟩ := addCode_step hl hr htidy
      rw [hb] at h1 h3
      simp only [if_true] at h1 h3
      simp only [follow, hb, if_true, Option.none_or]
      cases ls with
      | nil => exact ⟨by simp [lfRest, follow, h1], h2⟩
      | cons l' ls =>
        obtain ⟨r1, r2⟩ := rest_marks (l' :: ls) _ _ (i + 1) hls.tail (h3 hls.count) h2
        refine ⟨?_, r2⟩
        rw [r1, h1, List.append_assoc]
    · rw [if_neg hb]
      have hb' : isBlank (l ++ ls.flatten) = false := by
        simp only [isBlank, List.all_append, Bool.and_eq_false_iff]
        left
        simpa [isBlank] using hb
      have hpush : (lfAddCode st (l ++ ls.flatten)).marks =
          st.marks ++ (l ++ ls.flatten).map (fun c => (c, none)) ∧
          ∀ n ∈ (lfAddCode st (l ++ ls.flatten)).rev, n.ReadFrom from_ := by
        obtain ⟨rev, cl, cs, nl⟩ := st
        unfold lfAddCode
        have push : ∀ s : Str, LfState.marks ⟨.code s :: rev, cl, cs, nl⟩ =
            LfState.marks ⟨rev, cl, cs, nl⟩ ++ s.map (fun c => (c, none)) ∧
            ∀ n ∈ LNode.code s :: rev, n.ReadFrom from_ := by
          intro s
          refine ⟨by simp [LfState.marks, piecesMarks, LNode.piece, Piece.marks], ?_⟩
          intro n hn
          rcases List.mem_cons.1 hn with rfl | hn
          · trivial
          · exact hr n hn
        cases rev with
        | nil => exact push _
        | cons last rest =>
          cases last with
          | code s =>
            refine ⟨by simp [LfState.marks, piecesMarks, LNode.piece, Piece.marks], ?_⟩
            intro n hn
            rcases List.mem_cons.1 hn with rfl | hn
            · trivial
            · exact hr n (by simp [hn])
          | source n =>
            dsimp only
            rw [hb']
            simp only [Bool.false_eq_true, if_false]
            exact push _
          | str s => exact push _
          | single s => exact push _
          | map s => exact push _
          | idx s => exact push _
      refine ⟨?_, hpush.2⟩
      rw [hpush.1]
      simp only [follow, if_neg hb, Option.or_none, Option.map_none]
      rw [follow_none, List.map_append]

theorem lfLines_nil {ss contents : List Int} (st : LfState) : ∀ ms : List Str,
    lfLines ss contents st [] ms = .ok (st, [])
  | [] => rfl
  | m :: ms => by rw [lfLines]; exact lfLines_nil st ms

theorem lineFirst_here {p q : List Point} {i : Nat} (hp : ∀ x ∈ p, x.line = i) (hq : ∀ x ∈ q, i < x.line) :
    lineFirst (p ++ q) i = (p.findSome? Point.origin).map fun o => (o.source, o.line) := by
  unfold lineFirst
  rw [List.filter_append, List.filter_eq_self.2 (by simpa using hp),
    List.filter_eq_nil_iff.2 (by intro x hx; have := hq x hx; simp; omega), List.append_nil]

theorem lineFirst_later {p q : List Point} {i j : Nat} (hp : ∀ x ∈ p, x.line = i) (hj : i < j) :
    lineFirst (p ++ q) j = lineFirst q j := by
  unfold lineFirst
  rw [List.filter_append, List.filter_eq_nil_iff.2 (by intro x hx; have := hp x hx; simp; omega), List.nil_append]

theorem resolve_line {ss ns : List Int} {s : Seg} {p : Point} (h : s.resolve ss ns = some p) : p.line = s.line := by
  unfold Seg.resolve at h
  split at h
  · cases h
  · cases h; rfl
  · split at h
    · split at h
      · cases h; rfl
      · split at h
        · cases h
        · cases h; rfl
    · cases h

theorem resolveAll_line {ss ns : List Int} {k : Nat} : ∀ {y : List Seg} {ps : List Point},
    resolveAll ss ns y = some ps → (∀ s ∈ y, k ≤ s.line) → ∀ p ∈ ps, k ≤ p.line
  | [], ps, h, _, p, hp => by cases h; cases hp
  | s :: y, ps, h, hy, p, hp => by
    rw [resolveAll] at h
    split at h
    · rename_i a b e1 e2
      cases h
      rcases List.mem_cons.1 hp with rfl | hp
      · rw [resolve_line e1]; exact hy s (by simp)
      · exact resolveAll_line e2 (fun t ht => hy t (by simp [ht])) p hp
    · cases h

theorem readSeg_line {l : Nat} {a b : Spec.Acc} {x : Str} {y : List Seg} (h : readSeg l a x = some (y, b)) :
    ∀ s ∈ y, s.line = l := by
  unfold readSeg at h
  split at h <;> cases h
  all_goals
    intro s hs
    first
      | cases hs; done
      | rw [List.mem_singleton.1 hs]

theorem readSegs_line {l : Nat} : ∀ {xs : List Str} {a b : Spec.Acc} {y : List Seg},
    readSegs l a xs = some (y, b) → ∀ s ∈ y, s.line = l
  | [], a, b, y, h, s, hs => by cases h; cases hs
  | x :: xs, a, b, y, h, s, hs => by
    rw [readSegs] at h
    split at h
    · cases h
    · rename_i y1 a1 e1
      split at h
      · cases h
      · rename_i y2 a2 e2
        cases h
        rcases List.mem_append.1 hs with hs | hs
        · exact readSeg_line e1 s hs
        · exact readSegs_line e2 s hs

theorem readLines_line : ∀ {ms : List Str} {l : Nat} {a : Spec.Acc} {y : List Seg},
    readLines l a ms = some y → ∀ s ∈ y, l ≤ s.line
  | [], l, a, y, h, s, hs => by cases h; cases hs
  | m :: ms, l, a, y, h, s, hs => by
    rw [readLines] at h
    split at h
    · cases h
    · rename_i x a1 e
      split at h
      · cases h
      · rename_i z e2
        cases h
        rcases List.mem_append.1 hs with hs | hs
        · exact Nat.le_of_eq (readSegs_line e s hs).symm
        · have := readLines_line e2 s hs; omega

/-- All lines. -/
theorem lines_marks {ss ns contents : List Int} (hss : ss.length ≤ 4294967296) : ∀ (ms : List Str) (ls : List Str)
    (st : LfState) (prev : Option (Int × Nat)) (i : Nat) (a : Spec.Acc) (y : List Seg) (ps : List Point),
    readLines i a ms = some y → resolveAll ss ns y = some ps →
    (∀ p ∈ ps, ∀ o, p.origin = some o → o.line < 4294967296) → Same st a → CodeLines ls → LastSays st prev →
    (∀ n ∈ st.rev, n.Read) →
    ∃ st' rest, lfLines ss contents st ls ms = .ok (st', rest) ∧
      (lfRest st' rest).marks = st.marks ++ follow isBlank (lineFirst ps) i prev ls ∧
      ∀ n ∈ (lfRest st' rest).rev, n.Read
  | [], ls, st, prev, i, a, y, ps, hr, hp, hsm, hst, hls, hl, hrd => by
    cases hr
    simp only [resolveAll, Option.some.injEq] at hp
    subst hp
    have e : lfLines ss contents st ls [] = .ok (st, ls) := by cases ls <;> rfl
    obtain ⟨h1, h2⟩ := rest_marks ls st prev i hls hl hrd
    exact ⟨st, ls, e, h1, h2⟩
  | m :: ms, [], st, prev, i, a, y, ps, hr, hp, hsm, hst, hls, hl, hrd =>
    ⟨st, [], lfLines_nil st _, by simp [lfRest, follow], hrd⟩
  | m :: ms, l :: ls, st, prev, i, a, y, ps, hr, hp, hsm, hst, hls, hl, hrd => by
    rw [readLines] at hr
    split at hr
    · cases hr
    · rename_i y1 a1 e1
      split at hr
      · cases hr
      · rename_i y2 e2
        cases hr
        obtain ⟨p1, p2, r1, r2, rfl⟩ := resolveAll_append hp
        obtain ⟨st1, s1, s2, s3, s4, s5, s6⟩ := line_step (contents := contents) hss e1 r1
          (fun p hp => hsm p (List.mem_append_left _ hp)) hst hl hrd hls.tidy _ rfl
        have hq : ∀ x ∈ p2, i < x.line := fun x hx =>
          resolveAll_line (k := i + 1) r2 (fun s hs => readLines_line e2 s hs) x hx
        rw [← lineFirst_here s3 hq] at s4 s6
        simp only [follow]
        rw [lfLines, s1]
        dsimp only
        cases ls with
        | nil =>
          rw [lfLines_nil]
          exact ⟨st1, [], rfl, by simp [lfRest, follow, s4], s5⟩
        | cons l' ls =>
          obtain ⟨st', rest, t1, t2, t3⟩ := lines_marks hss ms (l' :: ls) st1 _ (i + 1) a1 y2 p2 e2 r2
            (fun p hp => hsm p (List.mem_append_right _ hp)) s2 hls.tail (s6 hls.count) s5
          refine ⟨st', rest, t1, ?_, t3⟩
          rw [t2, s4, List.append_assoc, follow_congr (o := lineFirst p2) (o' := lineFirst (p1 ++ p2)) _ (i + 1) _
            (fun j hj => (lineFirst_later s3 (by omega)).symm)]

/-- Lines that are attributed as a whole look as they are. -/
theorem shown_follow {blank : List Char → Bool} {org : Nat → Option (Int × Nat)} : ∀ (ls : List Str) (i : Nat)
    (prev : Option (Int × Nat)), CodeLines ls → shown none (follow blank org i prev ls) = follow blank org i prev ls := by
  have one : ∀ (x : Str) (a cur : Option (Int × Nat)), (cur = none ∨ cur = a) → '\n' ∉ x →
      shown cur (x.map fun c => (c, a)) = x.map fun c => (c, a) := by
    intro x
    induction x with
    | nil => intros; rfl
    | cons c x ih =>
      intro a cur hcur hx
      simp only [List.mem_cons, not_or] at hx
      simp only [List.map_cons, shown, if_neg (Ne.symm hx.1)]
      have : a.or cur = a := by rcases hcur with rfl | rfl <;> simp
      rw [this, ih a a (.inr rfl) hx.2]
  have endc : ∀ (x : Str) (a cur : Option (Int × Nat)), endCur cur ((x ++ ['\n']).map fun c => (c, a)) = none := by
    intro x a cur
    rw [List.map_append, endCur_append]
    rfl
  intro ls
  induction ls with
  | nil => intros; rfl
  | cons l ls ih =>
    intro i prev h
    simp only [follow]
    cases ls with
    | nil =>
      simp only [follow, List.append_nil]
      exact one l _ none (.inl rfl) h
    | cons l' ls =>
      obtain ⟨⟨x, rfl, hx⟩, h'⟩ := h
      rw [shown_append, endc, ih _ _ h']
      congr 1
      rw [List.map_append, shown_append, one x _ none (.inl rfl) hx]
      congr 1
      have : ∀ cur a : Option (Int × Nat), (cur = none ∨ cur = a) → a.or cur = a := by
        rintro cur a (rfl | rfl) <;> simp
      simp only [List.map_cons, List.map_nil, shown, if_true]
      have hcur : ∀ (y : Str) (a cur : Option (Int × Nat)), (cur = none ∨ cur = a) →
          (endCur cur (y.map fun c => (c, a)) = none ∨ endCur cur (y.map fun c => (c, a)) = a) := by
        intro y
        induction y with
        | nil => intro a cur h; exact h
        | cons c y ih =>
          intro a cur h
          simp only [List.map_cons, endCur]
          refine ih a _ ?_
          split
          · exact .inl rfl
          · right; exact this cur a h
      rw [this _ _ (hcur x _ none (.inl rfl))]

theorem slmFromString_origins (code : Str) (sources contents names : List Int) (mappings : Str) (ps : List Point)
    (hp : points sources names mappings = some ps) (hss : sources.length ≤ 4294967296)
    (hsm : ∀ p ∈ ps, ∀ o, p.origin = some o → o.line < 4294967296) (ls : List (List Char))
    (hls : IsLines '\n' code ls) :
    ∃ m, slmFromString code sources contents mappings = .ok m ∧
      piecesMarks (m.map LNode.piece) = follow isBlank (lineFirst ps) 1 none ls ∧ ∀ n ∈ m, n.Read := by
  have hls' : ls = splitKeep '\n' code := IsLines.unique '\n' code ls hls
  subst hls'
  unfold points at hp
  cases hd : decode mappings with
  | none => rw [hd] at hp; cases hp
  | some y =>
    rw [hd] at hp
    have hres : resolveAll sources names y = some ps := by simpa using hp
    unfold decode at hd
    rw [cut_eq] at hd
    obtain ⟨st, rest, h1, h2, h3⟩ := lines_marks (contents := contents) hss _ (splitKeep '\n' code)
      { rev := [], curLine := 1, curSource := 0, nodeLine := 0 } none 1 {} y ps hd hres hsm ⟨rfl, rfl⟩
      (codeLines_splitKeep code) rfl (by intro n hn; cases hn)
    have hm : slmFromString code sources contents mappings = .ok (lfRest st rest).rev.reverse := by
      unfold slmFromString; rw [h1]
    have hmarks : piecesMarks ((lfRest st rest).rev.reverse.map LNode.piece) =
        follow isBlank (lineFirst ps) 1 none (splitKeep '\n' code) := by
      have e : LfState.marks { rev := [], curLine := 1, curSource := 0, nodeLine := 0 } = [] := rfl
      rw [e, List.nil_append] at h2
      exact h2
    exact ⟨_, hm, hmarks, fun n hn => h3 n (List.mem_reverse.1 hn)⟩

/-- C14: reading a well-formed map (of fewer than 2^32 original lines and at most as many sources) gives a
list map in which every line is attributed to the first origin given for it; a blank line without one
continues an attributed line before it, other lines have no origin. The rendered map says so for every
character. -/
theorem C14_origins (code : Str) (sources contents names : List Int) (mappings : Str) (ps : List Point)
    (hp : points sources names mappings = some ps) (hss : sources.length ≤ 4294967296)
    (hsm : ∀ p ∈ ps, ∀ o, p.origin = some o → o.line < 4294967296) (ls : List (List Char))
    (hls : IsLines '\n' code ls) :
    ∃ m, slmFromString code sources contents mappings = .ok m ∧
      piecesMarks (m.map LNode.piece) = follow isBlank (lineFirst ps) 1 none ls ∧
      ∀ file, ∃ qs, mapPoints (slmToStringWithSourceMap m file).map = some qs ∧
        AttributesB qs (1, 0) (follow isBlank (lineFirst ps) 1 none ls) := by
  obtain ⟨m, hm, hmarks, h3⟩ := slmFromString_origins code sources contents names mappings ps hp hss hsm ls hls
  refine ⟨m, hm, hmarks, ?_⟩
  intro file
  have hls' : ls = splitKeep '\n' code := IsLines.unique '\n' code ls hls
  subst hls'
  have hbuilt := slmFromString_built hm
  have hok : ∀ n ∈ m, n.Ok := by
    intro n hn
    have hc := C42_lines (hbuilt n hn)
    have hr := h3 n hn
    cases n with
    | code s => trivial
    | source n => exact ⟨hc, fun _ => hr⟩
    | _ => exact hr.elim
  obtain ⟨qs, q1, q2⟩ := C12_lookup_partial _ file hok
  rw [hmarks, shown_follow _ _ _ (codeLines_splitKeep code)] at q2
  exact ⟨qs, q1, q2⟩

/-! Non-trivial case: an unmapped segment first, a blank line that continues, one that does not, and
lines behind the last mapping line. -/

example : (points [5, 6] [] "A,CAAA,CACA;;AACA;ACAA".toList).map (fun ps =>
      follow isBlank (lineFirst ps) 1 none (splitKeep '\n' "ab\n \nc\nd\n\ne\n \n".toList)) =
    (slmFromString "ab\n \nc\nd\n\ne\n \n".toList [5, 6] [] "A,CAAA,CACA;;AACA;ACAA".toList).toOption.map
      (fun m => piecesMarks (m.map LNode.piece)) := by decide +kernel
example : (slmFromString "ab\n \nc\nd\n\ne\n \n".toList [5, 6] [] "A,CAAA,CACA;;AACA;ACAA".toList).toOption.map
    (·.map LNode.piece) =
    some [.lines "ab\n \nc\n".toList 5 1, .lines "d\n\n".toList 6 3, .plain "e\n \n".toList] := by decide +kernel

end WS
