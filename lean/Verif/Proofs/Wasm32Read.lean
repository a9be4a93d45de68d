import Verif.Proofs.Wasm32List
/-! # Reading a map into a list map in 32-bit arithmetic -/

namespace WS
open Spec

theorem lfAddCode32_eq {st : LfState} {c : Str} (h : (lfAddCode st c).nodeLine < 4294967296) :
    lfAddCode32 st c = lfAddCode st c := by
  obtain ⟨rev, cl, cs, nl⟩ := st
  unfold lfAddCode32
  unfold lfAddCode at h ⊢
  cases rev with
  | nil => rfl
  | cons a rev =>
    cases a with
    | source n =>
      dsimp only at h ⊢
      split at h
      · rename_i hb; rw [if_pos hb, if_pos hb, usize32_id h]
      · rename_i hb; rw [if_neg hb, if_neg hb]
    | _ => rfl

theorem lfAddSource32_eq {st : LfState} {c : Str} {s o : Option Int} {l : Nat}
    (h : (lfAddSource st c s o l).nodeLine < 4294967296) :
    lfAddSource32 st c s o l = lfAddSource st c s o l := by
  obtain ⟨rev, cl, cs, nl⟩ := st
  unfold lfAddSource32
  unfold lfAddSource at h ⊢
  cases rev with
  | nil => dsimp only at h ⊢; rw [usize32_id h]
  | cons a rev =>
    cases a with
    | source n =>
      dsimp only at h ⊢
      split at h
      · rename_i hb; rw [if_pos hb, if_pos hb, usize32_id h]
      · rename_i hb; rw [if_neg hb, if_neg hb, usize32_id h]
    | _ => dsimp only at h ⊢; rw [usize32_id h]

/-- One segment, over the way a line is added (to compare the two arithmetics). -/
def lfSegmentOf (add : LfState → Str → Option Int → Option Int → Nat → LfState) (sources contents : List Int)
    (line : Str) (added : Bool) (st : LfState) (rest : Str) : M (Str × Bool × LfState) :=
  match (if rest.head? ≠ some ',' then
      (match vlqDecode rest with | some (_, r) => (.ok r : M Str) | none => .error .vlq)
    else .ok rest) with
  | .error e => .error e
  | .ok [] => .ok ([], added, st)
  | .ok (c :: r) =>
    if c = ',' then .ok (r, added, st)
    else
      match vlqDecode (c :: r) with
      | none => .error .vlq
      | some (v, rest) =>
        let si := toUsize (v + st.curSource)
        let st := { st with curSource := si }
        match (if rest ≠ [] ∧ rest.head? ≠ some ',' then
            (match vlqDecode rest with
              | some (v, r) => (.ok (v + st.curLine, r) : M (Int × Str))
              | none => .error .vlq)
          else .ok (st.curLine, rest)) with
        | .error e => .error e
        | .ok (lp, rest) =>
          let st := { st with curLine := lp }
          let rest := skipToComma rest
          if added then .ok (rest, added, st)
          else .ok (rest, true, add st line sources[si]? contents[si]? (toUsize lp))

theorem lfSegmentOf_cases (ss cs : List Int) (line : Str) (added : Bool) (st : LfState) (x : Str) :
    (∃ e, ∀ add, lfSegmentOf add ss cs line added st x = .error e) ∨
    (∃ r st1, st1.nodeLine = st.nodeLine ∧ ∀ add, lfSegmentOf add ss cs line added st x = .ok (r, added, st1)) ∨
    (∃ r st1 s o l, added = false ∧ st1.nodeLine = st.nodeLine ∧
      ∀ add, lfSegmentOf add ss cs line added st x = .ok (r, true, add st1 line s o l)) := by
  unfold lfSegmentOf
  dsimp only
  split
  · exact .inl ⟨_, fun _ => rfl⟩
  · exact .inr (.inl ⟨_, _, rfl, fun _ => rfl⟩)
  · split
    · exact .inr (.inl ⟨_, _, rfl, fun _ => rfl⟩)
    · split
      · exact .inl ⟨_, fun _ => rfl⟩
      · split
        · exact .inl ⟨_, fun _ => rfl⟩
        · cases added with
          | true => exact .inr (.inl ⟨_, _, by rfl, fun _ => rfl⟩)
          | false => exact .inr (.inr ⟨_, _, _, _, _, rfl, by rfl, fun _ => rfl⟩)

/-- One segment: without an added line the counter stays. -/
theorem lfSegment32_eq {ss cs : List Int} {line : Str} {added : Bool} {st st' : LfState} {x r : Str} {a : Bool}
    (h : lfSegment ss cs line added st x = .ok (r, a, st')) :
    (st'.nodeLine < 4294967296 → lfSegment32 ss cs line added st x = .ok (r, a, st')) ∧
    (added = true → a = true ∧ st'.nodeLine = st.nodeLine) ∧ (a = false → st'.nodeLine = st.nodeLine) := by
  have e1 : lfSegment ss cs line added st x = lfSegmentOf lfAddSource ss cs line added st x := rfl
  have e2 : lfSegment32 ss cs line added st x = lfSegmentOf lfAddSource32 ss cs line added st x := rfl
  rw [e1] at h
  rw [e2]
  rcases lfSegmentOf_cases ss cs line added st x with ⟨e, he⟩ | ⟨r0, st1, hn, he⟩ | ⟨r0, st1, s, o, l, ha, hn, he⟩
  · rw [he] at h; cases h
  · rw [he] at h; cases h
    exact ⟨fun _ => he _, fun h => ⟨h, hn⟩, fun _ => hn⟩
  · rw [he] at h; cases h
    subst ha
    refine ⟨fun hb => ?_, (fun h => by cases h), (fun h => by cases h)⟩
    rw [he, lfAddSource32_eq hb]

theorem lfSegments_keep {ss cs : List Int} {line : Str} : ∀ {fuel : Nat} {st st' : LfState} {x : Str} {a : Bool},
    lfSegments ss cs line fuel true st x = .ok (a, st') → st'.nodeLine = st.nodeLine
  | fuel, st, st', [], a, h => by
    have : lfSegments ss cs line fuel true st [] = .ok (true, st) := by cases fuel <;> rfl
    rw [this] at h; cases h; rfl
  | 0, st, st', _ :: _, a, h => by cases h
  | fuel + 1, st, st', c :: x, a, h => by
    rw [lfSegments] at h
    cases hs : lfSegment ss cs line true st (c :: x) with
    | error e => rw [hs] at h; cases h
    | ok p =>
      obtain ⟨r, b, st1⟩ := p
      rw [hs] at h
      dsimp only at h
      obtain ⟨-, hk, -⟩ := lfSegment32_eq hs
      obtain ⟨rfl, hk'⟩ := hk rfl
      have := lfSegments_keep h
      exact this.trans hk'

theorem lfSegments32_eq {ss cs : List Int} {line : Str} : ∀ {fuel : Nat} {st st' : LfState} {x : Str} {a added : Bool},
    st.nodeLine < 4294967296 → st'.nodeLine < 4294967296 →
    lfSegments ss cs line fuel added st x = .ok (a, st') →
    lfSegments32 ss cs line fuel added st x = .ok (a, st')
  | fuel, st, st', [], a, added, _, _, h => by
    have : lfSegments ss cs line fuel added st [] = .ok (added, st) := by cases fuel <;> rfl
    rw [this] at h; cases h
    cases fuel <;> rfl
  | 0, st, st', _ :: _, a, _, _, _, h => by cases h
  | fuel + 1, st, st', c :: x, a, added, hn, hn', h => by
    rw [lfSegments] at h
    cases hs : lfSegment ss cs line added st (c :: x) with
    | error e => rw [hs] at h; cases h
    | ok p =>
      obtain ⟨r, b, st1⟩ := p
      rw [hs] at h
      dsimp only at h
      obtain ⟨h32, -, hk⟩ := lfSegment32_eq hs
      have h1 : st1.nodeLine < 4294967296 := by
        cases b with
        | true => rw [← lfSegments_keep h]; exact hn'
        | false => rw [hk rfl]; exact hn
      rw [lfSegments32, h32 h1]
      exact lfSegments32_eq h1 hn' h

theorem lfAddCode_next (st : LfState) (c : Str) :
    st.nodeLine ≤ (lfAddCode st c).nodeLine ∧ (lfAddCode st c).nodeLine ≤ st.nodeLine + 1 := by
  unfold lfAddCode
  split
  · exact ⟨Nat.le_refl _, Nat.le_succ _⟩
  · split
    · exact ⟨Nat.le_succ _, Nat.le_refl _⟩
    · exact ⟨Nat.le_refl _, Nat.le_succ _⟩
  · exact ⟨Nat.le_refl _, Nat.le_succ _⟩

theorem lfLine32_eq {ss cs : List Int} {st st' : LfState} {l mp : Str} (h : lfLine ss cs st l mp = .ok st')
    (hn : st.nodeLine < 4294967296) (hn' : st'.nodeLine < 4294967296) : lfLine32 ss cs st l mp = .ok st' := by
  unfold lfLine at h
  unfold lfLine32
  split at h
  · rename_i he
    rw [if_pos he]
    cases h
    rw [lfAddCode32_eq hn']
  · rename_i he
    rw [if_neg he]
    cases hs : lfSegments ss cs l mp.length false st mp with
    | error e => rw [hs] at h; cases h
    | ok p =>
      obtain ⟨a, st1⟩ := p
      rw [hs] at h
      cases a with
      | true =>
        cases h
        rw [lfSegments32_eq hn hn' hs]
        rfl
      | false =>
        simp only [Bool.false_eq_true, if_false, Except.ok.injEq] at h
        subst h
        have h1 : st1.nodeLine < 4294967296 := Nat.lt_of_le_of_lt (lfAddCode_next st1 l).1 hn'
        rw [lfSegments32_eq hn h1 hs]
        simp only [Bool.false_eq_true, if_false]
        rw [lfAddCode32_eq hn']

/-- The first lines of the nodes read so far. -/
def LfState.Starts (L : Nat) (st : LfState) : Prop :=
  (∀ n, .source n ∈ st.rev → n.startLine ≤ L) ∧ ∀ n, .single n ∉ st.rev

theorem LfState.Starts.push {L cl' nl nl' : Nat} {rev : List LNode} {cl cl'' : Int} {cs : Nat}
    (h : LfState.Starts L ⟨rev, cl, cs, nl⟩) {x : LNode}
    (hx : (∀ n, x = .source n → n.startLine ≤ L) ∧ ∀ n, x ≠ .single n) :
    LfState.Starts L ⟨x :: rev, cl'', cl', nl'⟩ := by
  refine ⟨fun n hn => ?_, fun n hn => ?_⟩
  · rcases List.mem_cons.1 hn with hn | hn
    · exact hx.1 n hn.symm
    · exact h.1 n hn
  · rcases List.mem_cons.1 hn with hn | hn
    · exact hx.2 n hn.symm
    · exact h.2 n hn

theorem LfState.Starts.tail {L nl : Nat} {rev : List LNode} {cl : Int} {cs : Nat} {x : LNode}
    (h : LfState.Starts L ⟨x :: rev, cl, cs, nl⟩) : LfState.Starts L ⟨rev, cl, cs, nl⟩ :=
  ⟨fun n hn => h.1 n (List.mem_cons_of_mem _ hn), fun n hn => h.2 n (List.mem_cons_of_mem _ hn)⟩

theorem lfAddCode_starts {L : Nat} {st : LfState} (h : st.Starts L) (c : Str) : (lfAddCode st c).Starts L := by
  obtain ⟨rev, cl, cs, nl⟩ := st
  have code : ∀ c : Str, (∀ n, LNode.code c = .source n → n.startLine ≤ L) ∧ ∀ n, LNode.code c ≠ .single n :=
    fun c => ⟨nofun, nofun⟩
  unfold lfAddCode
  split
  · rename_i e
    simp only at e
    subst e
    exact h.tail.push (code _)
  · rename_i n0 rest e
    simp only at e
    subst e
    split
    · exact h.tail.push ⟨fun n e => by cases e; exact h.1 n0 (List.mem_cons_self ..), nofun⟩
    · exact h.push (code _)
  · exact h.push (code _)

theorem lfAddSource_starts {L : Nat} {st : LfState} (h : st.Starts L) (c : Str) (s o : Option Int) {l : Nat}
    (hl : l ≤ L) : (lfAddSource st c s o l).Starts L ∧
      (lfAddSource st c s o l).nodeLine ≤ max st.nodeLine L + 1 := by
  obtain ⟨rev, cl, cs, nl⟩ := st
  have push : LfState.Starts L ⟨.source (LSource.new c s o l) :: rev, cl, cs, l + 1⟩ :=
    h.push ⟨fun n e => by cases e; exact hl, nofun⟩
  unfold lfAddSource
  split
  · rename_i n0 rest e
    simp only at e
    subst e
    split
    · exact ⟨h.tail.push ⟨fun n e => by cases e; exact h.1 n0 (List.mem_cons_self ..), nofun⟩, by dsimp only; omega⟩
    · exact ⟨push, by dsimp only; omega⟩
  · exact ⟨push, by dsimp only; omega⟩

/-- One line of a readable map. -/
theorem line_bound {ss ns contents : List Int} (hss : ss.length ≤ 4294967296) {L : Nat} (hL : L < 4294967296) {i : Nat}
    {a b : Spec.Acc} {y : List Seg} {mp : Str} (hr : readSegs i { a with col := 0 } (cut ',' mp) = some (y, b))
    {ps : List Point} (hp : resolveAll ss ns y = some ps)
    (hsm : ∀ p ∈ ps, ∀ o, p.origin = some o → o.line ≤ L) {st : LfState} (hst : Same st a)
    (hs : st.Starts L) (l : Str) :
    ∃ st', lfLine ss contents st l mp = .ok st' ∧ Same st' b ∧ st'.Starts L ∧
      st'.nodeLine ≤ max st.nodeLine L + 1 := by
  have hst0 : Same st { a with col := 0 } := hst
  have code : ∀ (s : LfState), s.nodeLine = st.nodeLine → (lfAddCode s l).nodeLine ≤ max st.nodeLine L + 1 := by
    intro s e
    have := (lfAddCode_next s l).2
    omega
  unfold lfLine
  by_cases hm : mp = []
  · subst hm
    simp only [List.isEmpty_nil, if_true]
    have hc : cut ',' ([] : Str) = [[]] := rfl
    rw [hc] at hr
    simp only [readSegs, readSeg, fields_nil, Option.some.injEq, Prod.mk.injEq] at hr
    obtain ⟨rfl, rfl⟩ := hr
    exact ⟨_, rfl, lfAddCode_same hst0 _, lfAddCode_starts hs _, code st rfl⟩
  · have hme : mp.isEmpty = false := by simpa using hm
    rw [hme]
    simp only [Bool.false_eq_true, if_false]
    obtain ⟨xss, hx⟩ := readSegs_fields hr
    rw [lfSegments_eq mp xss mp.length false st (Nat.le_refl _) hx]
    obtain ⟨q1, q2, q3⟩ := segs_run (contents := contents) (line := l) hss hx hr hp
      (fun p hp o ho => by have := hsm p hp o ho; omega) hst0 false
    dsimp only
    have hs' : (upd st b).Starts L := hs
    cases hf : ps.findSome? Point.origin with
    | none =>
      rw [hf] at q3
      dsimp only at q3
      rw [q3]
      simp only [Bool.false_eq_true, if_false]
      exact ⟨_, rfl, lfAddCode_same q1 _, lfAddCode_starts hs' _, code _ rfl⟩
    | some o =>
      rw [hf] at q3
      simp only [Bool.false_eq_true, if_false] at q3
      obtain ⟨orig, q3⟩ := q3
      rw [q3]
      simp only [if_true]
      obtain ⟨p, hp1, hp2⟩ := List.exists_of_findSome?_eq_some hf
      obtain ⟨s1, s2⟩ := lfAddSource_starts hs' l (some o.source) orig (hsm p hp1 o hp2)
      exact ⟨_, rfl, lfAddSource_same q1 _ _ _ _, s1, s2⟩

theorem lines_bound {ss ns contents : List Int} (hss : ss.length ≤ 4294967296) {L : Nat} (hL : L < 4294967296) :
    ∀ (ms : List Str) (ls : List Str) (st : LfState) (i : Nat) (a : Spec.Acc) (y : List Seg) (ps : List Point),
    readLines i a ms = some y → resolveAll ss ns y = some ps →
    (∀ p ∈ ps, ∀ o, p.origin = some o → o.line ≤ L) → Same st a → st.Starts L →
    max st.nodeLine L + ls.length < 4294967296 →
    ∃ st' rest, lfLines ss contents st ls ms = .ok (st', rest) ∧ lfLines32 ss contents st ls ms = .ok (st', rest) ∧
      st'.Starts L ∧ max st'.nodeLine L + rest.length < 4294967296
  | [], ls, st, i, a, y, ps, hr, hp, hsm, hst, hs, hb =>
    ⟨st, ls, by cases ls <;> rfl, by cases ls <;> rfl, hs, hb⟩
  | m :: ms, [], st, i, a, y, ps, hr, hp, hsm, hst, hs, hb => by
    have e32 : ∀ ms : List Str, lfLines32 ss contents st [] ms = .ok (st, []) := by
      intro ms
      induction ms with
      | nil => rfl
      | cons m ms ih => rw [lfLines32]; exact ih
    exact ⟨st, [], lfLines_nil st _, e32 _, hs, hb⟩
  | m :: ms, l :: ls, st, i, a, y, ps, hr, hp, hsm, hst, hs, hb => by
    rw [List.length_cons] at hb
    rw [readLines] at hr
    split at hr
    · cases hr
    · rename_i y1 a1 e1
      split at hr
      · cases hr
      · rename_i y2 e2
        cases hr
        obtain ⟨p1, p2, r1, r2, rfl⟩ := resolveAll_append hp
        obtain ⟨st1, s1, s2, s3, s4⟩ := line_bound (contents := contents) hss hL e1 r1
          (fun p hp => hsm p (List.mem_append_left _ hp)) hst hs l
        obtain ⟨st', rest, t1, t2, t3, t4⟩ := lines_bound (contents := contents) hss hL ms ls st1 (i + 1) a1 y2 p2 e2 r2
          (fun p hp => hsm p (List.mem_append_right _ hp)) s2 s3 (by omega)
        refine ⟨st', rest, ?_, ?_, t3, t4⟩
        · rw [lfLines, s1]; exact t1
        · rw [lfLines32, lfLine32_eq s1 (by omega) (by omega)]; exact t2

theorem rest_bound {L : Nat} : ∀ (ls : List Str) (st : LfState), st.Starts L →
    max st.nodeLine L + ls.length < 4294967296 →
    lfRest32 st ls = lfRest st ls ∧ (lfRest st ls).Starts L
  | [], st, hs, _ => ⟨rfl, hs⟩
  | l :: ls, st, hs, hb => by
    rw [List.length_cons] at hb
    rw [lfRest32, lfRest]
    have h1 := (lfAddCode_next st l).2
    have h2 := (lfAddCode_next st (l ++ ls.flatten)).2
    split
    · rw [lfAddCode32_eq (by omega)]
      exact rest_bound ls _ (lfAddCode_starts hs l) (by omega)
    · rw [lfAddCode32_eq (by omega)]
      exact ⟨rfl, lfAddCode_starts hs _⟩

/-- Reading a map whose original lines and text leave room for each other. -/
theorem slmFromString32_eq {code : Str} {sources contents names : List Int} {mappings : Str} {ps : List Point}
    (hp : points sources names mappings = some ps) (hss : sources.length ≤ 4294967296) {L : Nat}
    (hsm : ∀ p ∈ ps, ∀ o, p.origin = some o → o.line ≤ L) (hL : L + code.count '\n' + 1 < 4294967296) :
    ∃ m, slmFromString code sources contents mappings = .ok m ∧
      slmFromString32 code sources contents mappings = .ok m ∧ SlmLow (L + code.count '\n') m := by
  unfold points at hp
  cases hd : decode mappings with
  | none => rw [hd] at hp; cases hp
  | some y =>
    rw [hd] at hp
    have hres : resolveAll sources names y = some ps := by simpa using hp
    unfold decode at hd
    rw [cut_eq] at hd
    obtain ⟨st, rest, h1, h2, h3, h4⟩ := lines_bound (contents := contents) hss (by omega : L < 4294967296) _
      (splitKeep '\n' code) { rev := [], curLine := 1, curSource := 0, nodeLine := 0 } 1 {} y ps hd hres hsm
      ⟨rfl, rfl⟩ ⟨(by intro n hn; cases hn), (by intro n hn; cases hn)⟩ (by rw [splitKeep_count]; dsimp only; omega)
    obtain ⟨r1, r2⟩ := rest_bound rest st h3 h4
    have hm : slmFromString code sources contents mappings = .ok (lfRest st rest).rev.reverse := by
      unfold slmFromString; rw [h1]
    refine ⟨_, hm, ?_, ?_⟩
    · unfold slmFromString32; rw [h2]; dsimp only; rw [r1]
    · have htext : slmText (lfRest st rest).rev.reverse = code :=
        (C13_text code sources contents mappings).1 _ hm none
      intro n hn
      have hc := C42_lines (slmFromString_built hm n hn)
      have hcount : n.text.count '\n' ≤ code.count '\n' := by
        rw [← htext]
        unfold slmText
        exact ((List.sublist_flatten_of_mem (List.mem_map_of_mem hn)).count_le _)
      cases n with
      | source n =>
        have hst := r2.1 n (List.mem_reverse.1 hn)
        have hc' : n.numLines = n.code.count '\n' := hc
        refine ⟨hc', ?_⟩
        simp only [LNode.text] at hcount
        omega
      | single n => exact absurd (List.mem_reverse.1 hn) (r2.2 n)
      | _ => trivial

end WS
