import Verif.Props.C22List
import Verif.Props.C22Objects
import Verif.Props.C14
import Verif.Props.C33
import Verif.Proofs.ListText
/-! # C22 for the objects of any program, line level -/

namespace WS
open Spec

/-! ## Mapped nodes start at lines numbered from 1 -/

/-- A mapped node starts at line 1 or later; there are no bare strings, list maps or indices. -/
def LNode.From1 : LNode → Prop
  | .code _ => True
  | .source n => 1 ≤ n.startLine
  | .single n => 1 ≤ n.line
  | _ => False

/-- All nodes do. -/
def SlmFrom1 (m : Slm) : Prop := ∀ n ∈ m, n.From1

theorem SlmFrom1.append {a b : Slm} (ha : SlmFrom1 a) (hb : SlmFrom1 b) : SlmFrom1 (a ++ b) :=
  fun c hc => (List.mem_append.1 hc).elim (ha c) (hb c)

theorem SlmFrom1.one {a : LNode} (h : a.From1) : SlmFrom1 [a] := fun c hc => by
  rw [List.mem_singleton.1 hc]; exact h

theorem SlmFrom1.nil : SlmFrom1 [] := fun c hc => by cases hc

theorem SlmFrom1.cons {a : LNode} {l : Slm} (h : a.From1) (hl : SlmFrom1 l) : SlmFrom1 (a :: l) :=
  SlmFrom1.append (SlmFrom1.one h) hl

theorem SlmFrom1.head {a : LNode} {l : Slm} (h : SlmFrom1 (a :: l)) : a.From1 := h a (List.mem_cons_self ..)

theorem SlmFrom1.tail {a : LNode} {l : Slm} (h : SlmFrom1 (a :: l)) : SlmFrom1 l :=
  fun c hc => h c (List.mem_cons_of_mem _ hc)

theorem slmAddStr_from1 {m : Slm} (h : SlmFrom1 m) (s : Str) (src o : Option Int) :
    SlmFrom1 (slmAddStr m s src o) := by
  simp only [slmAddStr]
  split
  · exact h.append (SlmFrom1.one (Nat.le_refl 1))
  · split
    · exact SlmFrom1.append (fun n hn => h n (List.dropLast_subset m hn)) (SlmFrom1.one trivial)
    · exact h.append (SlmFrom1.one trivial)

theorem normLines_from1 {src o : Option Int} (b : Bool) :
    ∀ {ls : List Str} {cur : Nat}, 1 ≤ cur → SlmFrom1 (normLines src o b cur ls)
  | [], _, _ => SlmFrom1.nil
  | [l], cur, h => by
    simp only [normLines]
    split
    · exact SlmFrom1.nil
    · exact SlmFrom1.one h
  | l :: l' :: ls, cur, h => by
    simp only [normLines]
    exact SlmFrom1.cons h (normLines_from1 b (Nat.le_succ_of_le h))

theorem normalized_from1 {n : LNode} (h : n.From1) : SlmFrom1 n.normalized := by
  cases n with
  | code s => exact SlmFrom1.one trivial
  | source n => exact normLines_from1 _ h
  | single n => exact SlmFrom1.one h
  | str _ | map _ | idx _ => exact SlmFrom1.nil

theorem merge_from1 {a b m : LNode} (ha : a.From1) (e : a.merge b = some m) : m.From1 := by
  cases a <;> cases b <;> simp only [LNode.merge, reduceCtorEq] at e
  · cases e; trivial
  · simp only [Option.map_eq_some_iff, LSource.mergeSource] at e
    obtain ⟨x, e, rfl⟩ := e
    split at e
    · cases e; exact ha
    · cases e
  · simp only [Option.map_eq_some_iff, LSource.mergeSingle] at e
    obtain ⟨x, e, rfl⟩ := e
    split at e
    · cases e; exact ha
    · cases e
  · simp only [LSingle.mergeSingle] at e
    split at e
    · split at e
      · cases e; exact ha
      · split at e
        · cases e; exact ha
        · cases e
    · cases e

theorem mapCode_from1 {σ : Type _} {f : σ → Str → Str × σ} {st : σ} {n : LNode} (h : n.From1) :
    ∀ m, (n.mapCode f st).1 = some m → m.From1 := by
  intro m e
  cases n <;> simp only [LNode.mapCode, reduceCtorEq] at e
  · cases e; trivial
  · cases e; exact h

theorem pushMerge_from1 {rev : List LNode} (h : SlmFrom1 rev) {o : Option LNode}
    (ho : ∀ m, o = some m → m.From1) : SlmFrom1 (pushMerge rev o) := by
  cases o with
  | none => exact h
  | some n =>
    cases rev with
    | nil => exact SlmFrom1.one (ho n rfl)
    | cons last rest =>
      simp only [pushMerge]
      split
      · exact SlmFrom1.cons (merge_from1 h.head ‹_›) h.tail
      · exact SlmFrom1.cons (ho n rfl) h

theorem mapLoop_from1 {σ : Type _} {f : σ → Str → Str × σ} : ∀ {ns : List LNode} {st : σ}
    {rev : List LNode}, SlmFrom1 rev → SlmFrom1 ns → SlmFrom1 (mapLoop f st rev ns).1
  | [], _, _, h, _ => h
  | n :: ns, st, rev, h, hn => by
    simp only [mapLoop]
    exact mapLoop_from1 (pushMerge_from1 h (mapCode_from1 hn.head)) hn.tail

theorem slmMapGenerated_from1 {σ : Type _} {f : σ → Str → Str × σ} {st : σ} {m : Slm} (h : SlmFrom1 m) :
    SlmFrom1 (slmMapGenerated f st m).1 := by
  simp only [slmMapGenerated]
  have : SlmFrom1 (m.map LNode.normalized).flatten := by
    intro n hn
    obtain ⟨l, hl, hn⟩ := List.mem_flatten.1 hn
    obtain ⟨x, hx, rfl⟩ := List.mem_map.1 hl
    exact normalized_from1 (h x hx) n hn
  intro n hn
  exact mapLoop_from1 SlmFrom1.nil this n (List.mem_reverse.1 hn)

theorem replaceListMap_from1 {m : Slm} (h : SlmFrom1 m) (rs : List Repl) :
    SlmFrom1 (replaceListMap m rs) := by
  have := slmMapGenerated_from1 (f := rmMap) (st := { cur := 0, pending := rs.reverse, remove := 0 }) h
  simp only [replaceListMap]
  split
  · exact this
  · exact slmAddStr_from1 this _ _ _

theorem replaceListMap_built {m : Slm} (h : AllBuilt m) (rs : List Repl) : AllBuilt (replaceListMap m rs) := by
  have := slmMapGenerated_built rmMap { cur := 0, pending := rs.reverse, remove := 0 } h
  simp only [replaceListMap]
  split
  · exact this
  · exact slmAddStr_built this _ _ _

theorem concatMaps_from1 : ∀ {ms : List (Str ⊕ Slm)} {m : Slm}, SlmFrom1 m →
    (∀ c, Sum.inr c ∈ ms → SlmFrom1 c) → SlmFrom1 (concatMaps m ms)
  | [], _, h, _ => h
  | .inl s :: ms, m, h, hm => by
    simp only [concatMaps]
    exact concatMaps_from1 (slmAddStr_from1 h _ _ _) (fun c hc => hm c (List.mem_cons_of_mem _ hc))
  | .inr c :: ms, m, h, hm => by
    simp only [concatMaps]
    exact concatMaps_from1 (h.append (hm c (List.mem_cons_self ..)))
      (fun c hc => hm c (List.mem_cons_of_mem _ hc))

/-! ## Reading -/

/-- The original line of a segment fits the 32-bit `usize` when counted from 1. -/
def Spec.Seg.LineFits (s : Seg) : Prop := ∀ x, s.orig = some x → 0 ≤ x.2.1 ∧ x.2.1 < 4294967295

theorem lfAddSource_from1 {st : LfState} (h : SlmFrom1 st.rev) (line : Str) (s o : Option Int) {l : Nat}
    (hl : 1 ≤ l) : SlmFrom1 (lfAddSource st line s o l).rev := by
  unfold lfAddSource
  split
  · rename_i n rest e
    rw [e] at h
    split
    · exact SlmFrom1.cons h.head h.tail
    · rw [e]; exact SlmFrom1.cons hl h
  · exact SlmFrom1.cons hl h

theorem lfAddSource_line (st : LfState) (line : Str) (s o : Option Int) (l : Nat) :
    (lfAddSource st line s o l).curLine = st.curLine := by
  unfold lfAddSource
  split
  · split <;> rfl
  · rfl

theorem lfAddCode_line (st : LfState) (code : Str) : (lfAddCode st code).curLine = st.curLine := by
  unfold lfAddCode
  split
  · rfl
  · split <;> rfl
  · rfl

theorem lfAddCode_from1 {st : LfState} (h : SlmFrom1 st.rev) (code : Str) :
    SlmFrom1 (lfAddCode st code).rev := by
  unfold lfAddCode
  split
  · rename_i s rest e
    rw [e] at h
    exact SlmFrom1.cons trivial h.tail
  · rename_i n rest e
    split
    · rw [e] at h; exact SlmFrom1.cons h.head h.tail
    · exact SlmFrom1.cons trivial h
  · exact SlmFrom1.cons trivial h

theorem lfRest_from1 : ∀ (ls : List Str) (st : LfState), SlmFrom1 st.rev → SlmFrom1 (lfRest st ls).rev
  | [], _, h => h
  | l :: ls, st, h => by
    rw [lfRest]
    split
    · exact lfRest_from1 ls _ (lfAddCode_from1 h _)
    · exact lfAddCode_from1 h _

theorem segEffect_from1 {ss contents : List Int} {line x : Str} {i : Nat} {a b : Spec.Acc}
    {y : List Seg} {xs : List Int} (hx : fields x = some xs) (hr : readSeg i a x = some (y, b))
    (hy : ∀ s ∈ y, s.LineFits) {st : LfState} (hl : st.curLine = a.line + 1) (h : SlmFrom1 st.rev)
    (added : Bool) :
    (segEffect ss contents line xs added st).2.curLine = b.line + 1 ∧
    SlmFrom1 (segEffect ss contents line xs added st).2.rev := by
  unfold readSeg at hr
  rw [hx] at hr
  have many : ∀ (c s ol oc : Int) (n : Option Int) (rest : List Int) (b : Spec.Acc), xs = c :: s :: ol :: rest →
      y = [⟨i, a.col + c, some (a.source + s, a.line + ol, a.origCol + oc, n)⟩] →
      b.line = a.line + ol → (segEffect ss contents line xs added st).2.curLine = b.line + 1 ∧
      SlmFrom1 (segEffect ss contents line xs added st).2.rev := by
    intro c s ol oc n rest b hxs hyy hb
    subst hxs hyy
    have hf := hy _ (List.mem_singleton.2 rfl) _ rfl
    dsimp only at hf
    simp only [segEffect]
    cases added with
    | true => exact ⟨by simp only [if_true]; omega, h⟩
    | false =>
      simp only [Bool.false_eq_true, if_false]
      refine ⟨?_, ?_⟩
      · rw [lfAddSource_line]
        simp only
        omega
      · refine lfAddSource_from1
          (st := { st with curLine := ol + st.curLine, curSource := toUsize (s + st.curSource) }) h _ _ _ ?_
        unfold toUsize
        omega
  split at hr
  · rename_i e; cases e; cases hr; exact ⟨hl, h⟩
  · rename_i c e; cases e; cases hr; exact ⟨hl, h⟩
  · rename_i c s ol oc e; cases e; cases hr
    exact many c s ol oc none [oc] _ rfl rfl rfl
  · rename_i c s ol oc n e; cases e; cases hr
    exact many c s ol oc (some (a.name + n)) [oc, n] _ rfl rfl rfl
  · cases hr

theorem segsEffect_from1 {ss contents : List Int} {line : Str} {i : Nat} :
    ∀ {strs : List Str} {a b : Spec.Acc} {y : List Seg} {xss : List (List Int)}, strs.map fields = xss.map some →
    readSegs i a strs = some (y, b) → (∀ s ∈ y, s.LineFits) → ∀ {st : LfState}, st.curLine = a.line + 1 →
    SlmFrom1 st.rev → ∀ (added : Bool),
    (segsEffect ss contents line xss added st).2.curLine = b.line + 1 ∧
    SlmFrom1 (segsEffect ss contents line xss added st).2.rev
  | [], a, b, y, xss, hx, hr, hy, st, hl, h, added => by
    cases hr
    cases xss with
    | cons xs xss => simp at hx
    | nil => exact ⟨hl, h⟩
  | x :: strs, a, b, y, xss, hx, hr, hy, st, hl, h, added => by
    cases xss with
    | nil => simp at hx
    | cons xs xss =>
      simp only [List.map_cons, List.cons.injEq] at hx
      rw [readSegs] at hr
      split at hr
      · cases hr
      · rename_i y1 a1 e1
        split at hr
        · cases hr
        · rename_i y2 a2 e2
          cases hr
          have s1 := segEffect_from1 (ss := ss) (contents := contents) (line := line) hx.1 e1
            (fun s hs => hy s (List.mem_append_left _ hs)) hl h added
          exact segsEffect_from1 hx.2 e2 (fun s hs => hy s (List.mem_append_right _ hs)) s1.1 s1.2 _

theorem lfLine_from1 {ss contents : List Int} {i : Nat} {a b : Spec.Acc} {y : List Seg} {mp : Str}
    (hr : readSegs i { a with col := 0 } (cut ',' mp) = some (y, b)) (hy : ∀ s ∈ y, s.LineFits)
    {st st' : LfState} (hl : st.curLine = a.line + 1) (h : SlmFrom1 st.rev) {l : Str}
    (e : lfLine ss contents st l mp = .ok st') : st'.curLine = b.line + 1 ∧ SlmFrom1 st'.rev := by
  unfold lfLine at e
  by_cases hm : mp = []
  · subst hm
    simp only [List.isEmpty_nil, if_true] at e
    cases e
    have hc : cut ',' ([] : Str) = [[]] := rfl
    rw [hc] at hr
    simp only [readSegs, readSeg, fields_nil, Option.some.injEq, Prod.mk.injEq] at hr
    obtain ⟨-, rfl⟩ := hr
    exact ⟨by rw [lfAddCode_line]; exact hl, lfAddCode_from1 h _⟩
  · have hme : mp.isEmpty = false := by simpa using hm
    rw [hme] at e
    simp only [Bool.false_eq_true, if_false] at e
    obtain ⟨xss, hx⟩ := readSegs_fields hr
    rw [lfSegments_eq mp xss mp.length false st (Nat.le_refl _) hx] at e
    have s1 := segsEffect_from1 (ss := ss) (contents := contents) (line := l) hx hr hy hl h false
    dsimp only at e
    split at e
    · cases e; exact s1
    · cases e; exact ⟨by rw [lfAddCode_line]; exact s1.1, lfAddCode_from1 s1.2 _⟩

theorem lfLines_from1 {ss contents : List Int} : ∀ (ms : List Str) (ls : List Str) (st : LfState) (i : Nat)
    (a : Spec.Acc) (y : List Seg) {st' : LfState} {rest : List Str}, readLines i a ms = some y →
    (∀ s ∈ y, s.LineFits) → st.curLine = a.line + 1 → SlmFrom1 st.rev →
    lfLines ss contents st ls ms = .ok (st', rest) → SlmFrom1 st'.rev
  | [], ls, st, i, a, y, st', rest, _, _, _, h, e => by
    have : lfLines ss contents st ls [] = .ok (st, ls) := by cases ls <;> rfl
    rw [this] at e; cases e; exact h
  | m :: ms, [], st, i, a, y, st', rest, _, _, _, h, e => by
    rw [lfLines_nil] at e; cases e; exact h
  | m :: ms, l :: ls, st, i, a, y, st', rest, hr, hy, hl, h, e => by
    rw [readLines] at hr
    split at hr
    · cases hr
    · rename_i y1 a1 e1
      split at hr
      · cases hr
      · rename_i y2 e2
        cases hr
        rw [lfLines] at e
        split at e
        · cases e
        · rename_i st1 e3
          have s1 := lfLine_from1 e1 (fun s hs => hy s (List.mem_append_left _ hs)) hl h e3
          exact lfLines_from1 ms ls st1 _ _ _ e2 (fun s hs => hy s (List.mem_append_right _ hs)) s1.1 s1.2 e

/-- Reading mappings with lines that fit gives nodes that start at line 1 or later. -/
theorem slmFromString_from1 {code : Str} {sources contents : List Int} {mappings : Str} {m : Slm} {y : List Seg}
    (hd : decode mappings = some y) (hy : ∀ s ∈ y, s.LineFits)
    (e : slmFromString code sources contents mappings = .ok m) : SlmFrom1 m := by
  unfold slmFromString at e
  split at e
  · cases e
  · rename_i st rest e1
    cases e
    unfold decode at hd
    rw [cut_eq] at hd
    have := lfLines_from1 _ _ _ _ _ _ hd hy rfl SlmFrom1.nil e1
    exact fun n hn => lfRest_from1 rest st this n (List.mem_reverse.1 hn)

/-! ## Objects -/

/-- The map of a `SourceMapSource` can be read line by line: its mappings are well-formed with line numbers
that fit. (A generator with an inner map besides is left out, see `C06_not_general`.) -/
structure Spec.LineReadable (m : SmHolder) (inner : Option SmHolder) : Prop where
  data : ∀ d, m.data = some d → ∃ y, decode d.mappings = some y ∧ ∀ s ∈ y, s.LineFits
  gen : m.data = none → inner = none ∧ ∀ g, m.gen = some g → (∃ a r ps, Made a r g ps) ∧
    ∀ x ∈ g.mappings.list, ∀ o, x.original = some o → o.1 < 4294967296

/-- What is asked of the calls of a program. The index `-1` stands for no string. -/
def Spec.Op.LinesFit : Op → Prop
  | .newOriginal _ n _ => n ≠ -1
  | .newL2l _ n _ => n ≠ -1
  | .newSms _ _ n m _ i => n ≠ -1 ∧ LineReadable m i ∧ (∀ d, m.data = some d → -1 ∉ d.sources) ∧
      ∀ g, m.gen = some g → -1 ∉ g.sources.map Prod.fst
  | _ => True

/-- What reads keep of the map. -/
structure Sms.LineSafe (s : Sms) : Prop where
  name : s.name ≠ -1
  data : ∀ d, s.map.data = some d → -1 ∉ d.sources ∧ ∃ y, decode d.mappings = some y ∧ ∀ s ∈ y, s.LineFits
  gen : s.map.data = none → s.inner = none ∧ ∀ g, s.map.gen = some g → -1 ∉ g.sources.map Prod.fst ∧
    g.Ok ∧ g.mappings.Truthful ∧ ∀ x ∈ g.mappings.list, ∀ o, x.original = some o → o.1 < 4294967296

/-- The same of objects. -/
def Obj.LineSafe : Obj → Prop
  | .original _ n _ => n ≠ -1
  | .l2l _ n _ => n ≠ -1
  | .sms s => s.LineSafe
  | _ => True

theorem resolve_fits {ss ns : List Int} {s : Seg} {p : Point} (h : s.resolve ss ns = some p)
    (hp : ∀ o, p.origin = some o → o.line < 4294967296) : s.LineFits := by
  intro x hx
  obtain ⟨si, ol, oc, ni⟩ := x
  unfold Seg.resolve at h
  rw [hx] at h
  cases hc : nat? s.col with
  | none => rw [hc] at h; cases h
  | some c =>
  cases hs : at? ss si with
  | none => simp only [hc, hs] at h; cases h
  | some src =>
  cases hl : nat? ol with
  | none => simp only [hc, hs, hl] at h; cases h
  | some gl =>
  have hgl := nat?_some hl
  cases ho : nat? oc with
  | none => simp only [hc, hs, hl, ho] at h; cases h
  | some go =>
    have fin : ∀ nm, p.origin = some ⟨src, gl + 1, go, nm⟩ → 0 ≤ ol ∧ ol < 4294967295 := by
      intro nm e
      have := hp _ e
      dsimp only at this
      omega
    cases ni with
    | none =>
      simp only [hc, hs, hl, ho] at h
      cases h
      exact fin none rfl
    | some n =>
      cases hn : at? ns n with
      | none => simp only [hc, hs, hl, ho, hn] at h; cases h
      | some nm =>
        simp only [hc, hs, hl, ho, hn] at h
        cases h
        exact fin (some nm) rfl

theorem resolveAll_fits {ss ns : List Int} : ∀ {y : List Seg} {ps : List Point}, resolveAll ss ns y = some ps →
    (∀ p ∈ ps, ∀ o, p.origin = some o → o.line < 4294967296) → ∀ s ∈ y, s.LineFits
  | [], _, _, _, s, hs => by cases hs
  | s :: y, ps, h, hp, t, ht => by
    rw [resolveAll] at h
    split at h
    · rename_i a b e1 e2
      cases h
      rcases List.mem_cons.1 ht with rfl | ht
      · exact resolve_fits e1 (hp a (by simp))
      · exact resolveAll_fits e2 (fun p h => hp p (by simp [h])) t ht
    · cases h

theorem points_fits {ss ns : List Int} {m : Str} {ps : List Point} (h : points ss ns m = some ps)
    (hp : ∀ p ∈ ps, ∀ o, p.origin = some o → o.line < 4294967296) :
    ∃ y, decode m = some y ∧ ∀ s ∈ y, s.LineFits := by
  unfold points at h
  split at h
  · cases h
  · rename_i y e; exact ⟨y, e, resolveAll_fits h hp⟩

theorem Mapping.point_line {m : Mapping} (h : ∀ o, m.original = some o → o.1 < 4294967296) :
    ∀ o, m.point.origin = some o → o.line < 4294967296 := by
  intro o ho
  unfold Mapping.point at ho
  dsimp only at ho
  split at ho
  · rename_i e1 e2
    cases ho
    exact h _ e1
  · cases ho

theorem named_of_has {m : Slm} (h : SlmHas (fun s _ => s ≠ some (-1)) m) : ∀ n ∈ m, n.Named := by
  intro n hn
  have := h n hn
  cases n <;> first | exact this | trivial

/-- What holds of the list maps. -/
def SlmGoodLines (m : Slm) : Prop := AllBuilt m ∧ SlmFrom1 m ∧ SlmHas (fun s _ => s ≠ some (-1)) m

theorem slmNewStr_goodLines (s : Str) {src : Option Int} (o : Option Int) (h : src ≠ some (-1)) :
    SlmGoodLines (slmNewStr s src o) :=
  ⟨slmNewStr_built _ _ _, slmAddStr_from1 SlmFrom1.nil _ _ _,
    slmAddStr_in (Q := fun s _ => s ≠ some (-1)) SlmHas.nil h⟩

theorem read_lines {code : Str} {ss cs : List Int} {mp : Str} {m : Slm} (h : -1 ∉ ss) {y : List Seg}
    (hd : decode mp = some y) (hy : ∀ s ∈ y, s.LineFits) (e : slmFromString code ss cs mp = .ok m) :
    SlmGoodLines m :=
  ⟨slmFromString_built e, slmFromString_from1 hd hy e, slmFromString_in (Q := fun s _ => s ≠ some (-1))
    (fun _ hi => h (List.mem_of_getElem? hi)) e⟩

theorem Sms.LineSafe.listMap {s s' : Sms} (H : s.LineSafe) {b : Bool} {m : Slm}
    (e : s.listMap b = .ok (m, s')) : SlmGoodLines m ∧ s'.LineSafe := by
  simp only [Sms.listMap] at e
  split at e
  · cases e
    exact ⟨slmNewStr_goodLines _ _ (by simpa using H.name), H⟩
  · split at e
    · cases e
    · rename_i d mp e1
      have h1 : (-1 ∉ d.sources ∧ ∃ y, decode d.mappings = some y ∧ ∀ s ∈ y, s.LineFits) ∧
          Sms.LineSafe { s with map := mp } := by
        simp only [SmHolder.getData] at e1
        split at e1
        · rename_i d' hd
          cases e1
          exact ⟨H.data _ hd, H⟩
        · rename_i hd
          obtain ⟨hi, hg⟩ := H.gen hd
          split at e1
          · cases e1
          · rename_i g hgen
            obtain ⟨h1, h2, h3, h4⟩ := hg g hgen
            have hs : g.mappings.sort.list.Pairwise (fun a b => Mapping.le a b = true) := by
              rw [MappingList.sort_list h3]; exact sortBy_sorted _
            obtain ⟨sm, e2, k1, k2, k3, k4⟩ := Generator.toSourceMap_ok h2 hs
            rw [e2] at e1
            cases e1
            have hread : -1 ∉ sm.sources ∧ ∃ y, decode sm.mappings = some y ∧ ∀ s ∈ y, s.LineFits := by
              refine ⟨by rw [k1]; exact h1, points_fits k4 ?_⟩
              intro p hp
              obtain ⟨x, hx, rfl⟩ := List.mem_map.1 hp
              exact Mapping.point_line (h4 x (MappingList.sort_mem hx))
            exact ⟨hread, H.name, fun d hd => (by cases hd; exact hread), fun hd => (by cases hd)⟩
      split at e
      · cases e
      · cases e
        obtain ⟨⟨h2, y, h3, h4⟩, h5⟩ := h1
        exact ⟨read_lines h2 h3 h4 ‹_›, h5⟩

theorem SmHolder.getGen_keeps {h h' : SmHolder} {g : Generator} (e : h.getGen = .ok (g, h')) :
    h'.data = h.data ∧ (h.data = none → h' = h) := by
  simp only [SmHolder.getGen] at e
  split at e
  · cases e; exact ⟨rfl, fun _ => rfl⟩
  · split at e
    · cases e
    · rename_i d hd
      split at e
      · cases e
      · cases e; exact ⟨rfl, fun h => by rw [hd] at h; cases h⟩

theorem Sms.LineSafe.node {s s' : Sms} (H : s.LineSafe) {n : SmNode}
    (e : s.node = .ok (n, s')) : s'.LineSafe := by
  simp only [Sms.node] at e
  split at e
  · cases e
  · rename_i g mp e1
    obtain ⟨h1, h2⟩ := SmHolder.getGen_keeps e1
    split at e
    · rename_i hi
      split at e
      · cases e
      · cases e
        refine ⟨H.name, fun d hd => H.data d (h1 ▸ hd), fun hd => ?_⟩
        have hd' : s.map.data = none := h1 ▸ hd
        have := H.gen hd'
        rw [h2 hd']
        exact this
    · rename_i ih hi
      have hsome : s.map.data ≠ none := fun hd => by
        have := (H.gen hd).1
        rw [hi] at this; cases this
      split at e
      · cases e
      · split at e
        · cases e
        · split at e
          · cases e
          · cases e
            exact ⟨H.name, fun d hd => H.data d (h1 ▸ hd), fun hd => absurd (h1 ▸ hd) hsome⟩

theorem hNode_lineSafe (cols mod : Bool) (fuel : Nat) : ∀ (h : Heap) (busy : List Nat) (c : Src)
    (n : SmNode) (h' : Heap), Heap.All Obj.LineSafe h → hNode cols mod fuel h busy c = .ok (n, h') →
    Heap.All Obj.LineSafe h' := by
  induction fuel with
  | zero => intro h busy c s h' _ e; cases c <;> cases e
  | succ fuel ih =>
    intro h busy c n h' H e
    cases c with
    | str s => cases e
    | ref i =>
      simp only [hNode] at e
      split at e
      · cases e
      · split at e
        · cases e
        · cases e; exact H
        · cases e; exact H
        · cases e; exact H
        · rename_i eo
          have ho : Sms.LineSafe _ := H _ _ eo
          split at e
          · cases e
          · rename_i e1
            have := ho.node e1
            cases e
            exact H.set (o := .sms _) this
        · split at e
          · cases e
          · rename_i e1
            have := ih _ _ _ _ _ H e1
            cases e
            exact this
        · split at e
          · cases e
          · rename_i e1
            have := ih _ _ _ _ _ (H.set (by exact trivial)) e1
            split at e
            · cases e
            · cases e
              exact this
        · split at e
          · cases e
          · rename_i e1
            have := eachChild_all (P := fun _ : SmNode => True) (fun c _ h a h' H e => by
              cases c with
              | str s => cases e; exact ⟨trivial, H⟩
              | ref j => exact ⟨trivial, ih _ _ _ _ _ H e⟩) H e1
            cases e
            exact this.2

theorem hListMap_lineSafe (cols mod : Bool) (fuel : Nat) : ∀ (h : Heap) (busy : List Nat) (c : Src)
    (m : Slm) (h' : Heap), Heap.All Obj.LineSafe h → hListMap cols mod fuel h busy c = .ok (m, h') →
    SlmGoodLines m ∧ Heap.All Obj.LineSafe h' := by
  induction fuel with
  | zero => intro h busy c s h' _ e; cases c <;> cases e
  | succ fuel ih =>
    intro h busy c n h' H e
    cases c with
    | str s => cases e
    | ref i =>
      simp only [hListMap] at e
      split at e
      · cases e
      · split at e
        · cases e
        · cases e; exact ⟨slmNewStr_goodLines _ _ (by simp), H⟩
        · rename_i eo
          have ho := H _ _ eo
          cases e; exact ⟨slmNewStr_goodLines _ _ (by simpa [Obj.LineSafe] using ho), H⟩
        · rename_i eo
          have ho := H _ _ eo
          cases e; exact ⟨slmNewStr_goodLines _ _ (by simpa [Obj.LineSafe] using ho), H⟩
        · rename_i eo
          have ho : Sms.LineSafe _ := H _ _ eo
          split at e
          · cases e
          · rename_i e1
            have := ho.listMap e1
            cases e
            exact ⟨this.1, H.set (o := .sms _) this.2⟩
        · split at e
          · cases e
          · rename_i e1
            have := ih _ _ _ _ _ H e1
            cases e
            exact ⟨⟨slmMapGenerated_built _ _ this.1.1, slmMapGenerated_from1 this.1.2.1,
              slmMapGenerated_in this.1.2.2⟩, this.2⟩
        · split at e
          · cases e
          · rename_i e1
            have := ih _ _ _ _ _ (H.set (by exact trivial)) e1
            cases e
            exact ⟨⟨replaceListMap_built this.1.1 _, replaceListMap_from1 this.1.2.1 _,
              replaceListMap_in (by simp) this.1.2.2 _⟩, this.2⟩
        · split at e
          · cases e
          · rename_i e1
            have := eachChild_all (P := fun x : Str ⊕ Slm => ∀ c, x = .inr c → SlmGoodLines c)
              (fun c _ h a h' H e => by
                cases c with
                | str s => cases e; exact ⟨fun c hc => (by cases hc), H⟩
                | ref j =>
                  dsimp only at e
                  split at e
                  · cases e
                  · rename_i e2
                    have := ih _ _ _ _ _ H e2
                    cases e
                    exact ⟨fun c hc => by cases hc; exact this.1, this.2⟩) H e1
            cases e
            exact ⟨⟨concatMaps_built _ _ (fun n hn => by cases hn) (fun l hl => (this.1 _ hl l rfl).1),
              concatMaps_from1 SlmFrom1.nil (fun l hl => (this.1 _ hl l rfl).2.1),
              concatMaps_in (by simp) SlmHas.nil (fun x hx c hc => (this.1 x hx c hc).2.2)⟩, this.2⟩

/-- The object a call makes is of that kind. -/
def Op.LineOk : Op → Prop
  | .newOriginal _ n _ => n ≠ -1
  | .newL2l _ n _ => n ≠ -1
  | .newSms v vi n m o i => (Sms.create v vi n m o i).LineSafe
  | _ => True

theorem Op.LineOk.of_fit {op : Op} (ho : Spec.Op.LinesFit op) : op.LineOk := by
  cases op <;> try exact ho
  obtain ⟨h1, h2, h3, h4⟩ := ho
  refine ⟨h1, fun d hd => ⟨h3 d hd, h2.data d hd⟩, fun hd => ?_⟩
  obtain ⟨k1, k2⟩ := h2.gen hd
  refine ⟨k1, fun g hg => ?_⟩
  obtain ⟨⟨a, r, ps, hm⟩, k3⟩ := k2 g hg
  exact ⟨h4 g hg, hm.inv.1, hm.inv.2.1, k3⟩

theorem Op.run_lineSafe {op : Op} {h h' : Heap} {a : Answer} (H : Heap.All Obj.LineSafe h)
    (ho : op.LineOk) (e : op.run h = .ok (a, h')) : Heap.All Obj.LineSafe h' := by
  cases op <;> simp only [Op.run, Except.map_ok_iff] at e
  case newRaw => cases e; exact H.push trivial
  case newOriginal => cases e; exact H.push ho
  case newL2l => cases e; exact H.push ho
  case newSms =>
    cases e
    exact H.push (o := .sms _) ho
  case newPrefix =>
    split at e
    · cases e; exact H.push trivial
    · cases e
  case newReplace =>
    split at e
    · cases e; exact H.push trivial
    · cases e
  case newConcat => cases e; exact H.push trivial
  case add =>
    obtain ⟨h1, e, e'⟩ := e
    cases e'
    simp only [hAdd] at e
    split at e
    · split at e
      · cases e; exact H.set trivial
      · split at e
        · cases e
        · split at e
          · cases e
          · cases e; exact H.set trivial
        · cases e; exact H.set trivial
    · cases e
  case replace =>
    obtain ⟨h1, e, e'⟩ := e
    cases e'
    simp only [hReplace] at e
    split at e
    · cases e; exact H.set trivial
    · cases e
  case insert =>
    obtain ⟨h1, e, e'⟩ := e
    cases e'
    simp only [hInsert] at e
    split at e
    · cases e; exact H.set trivial
    · cases e
  case source =>
    obtain ⟨⟨s, h1⟩, e, e'⟩ := e
    cases e'
    exact hSource_all (fun _ _ _ _ _ _ _ => trivial) _ _ _ _ _ _ H e
  case size =>
    obtain ⟨⟨s, h1⟩, e, e'⟩ := e
    cases e'
    exact hSize_all (fun _ _ _ _ _ _ _ => trivial) _ _ _ _ _ _ H e
  case node =>
    obtain ⟨⟨s, h1⟩, e, e'⟩ := e
    cases e'
    exact hNode_lineSafe _ _ _ _ _ _ _ _ H e
  case listMap =>
    obtain ⟨⟨s, h1⟩, e, e'⟩ := e
    cases e'
    exact (hListMap_lineSafe _ _ _ _ _ _ _ _ H e).2

theorem runFrom_lineSafe {ops : List Op} : ∀ {h h' : Heap}, Heap.All Obj.LineSafe h →
    (∀ op ∈ ops, op.LineOk) → runFrom h ops = .ok h' → Heap.All Obj.LineSafe h' := by
  induction ops with
  | nil => intro h h' H _ e; cases e; exact H
  | cons op ops ih =>
    intro h h' H ho e
    simp only [runFrom] at e
    split at e
    · cases e
    · rename_i e1
      exact ih (Op.run_lineSafe H (ho op (by simp)) e1) (fun o h => ho o (by simp [h])) e

theorem SlmGoodLines.counted {m : Slm} (h : SlmGoodLines m) : ∀ n ∈ m, n.Counted := by
  intro n hn
  have h1 := C42_lines (h.1 n hn)
  have h2 := h.2.1 n hn
  cases n with
  | source n => exact ⟨h1, fun _ => h2⟩
  | single n => exact ⟨h1, fun _ => h2⟩
  | _ => trivial

theorem objects_lines_valid {ops : List Op} {h h' : Heap} {i : Nat} {module_ : Bool} {file : Option Int}
    {r : StringWithSourceMap} (hf : ∀ op ∈ ops, op.LineOk) (hr : run ops = .ok h)
    (e : apiSourceAndMap h i false module_ file = .ok (r, h')) :
    r.map.sources.Nodup ∧ r.map.names.Nodup ∧ (mapPoints r.map).isSome = true := by
  unfold apiSourceAndMap at e
  simp only [Bool.false_eq_true, if_false] at e
  split at e
  · cases e
  · rename_i m h1 e1
    cases e
    have H : Heap.All Obj.LineSafe h := runFrom_lineSafe (fun i o e => (by simp at e)) hf hr
    have := (hListMap_lineSafe _ _ _ _ _ _ _ _ H e1).1
    exact C22_list_partial m file this.counted (named_of_has this.2.2)

/-- C22 at the public interface with `columns: false`: whatever a program has made and read before, if the
list map of an object can be built then neither array of the map repeats an entry and every index in its
mappings string is valid (`mapPoints` fails otherwise), given that the maps handed to `SourceMapSource`s
are well-formed. -/
theorem C22_objects_lines (ops : List Op) (h h' : Heap) (i : Nat) (module_ : Bool) (file : Option Int)
    (r : StringWithSourceMap) (hf : ∀ op ∈ ops, Spec.Op.LinesFit op) (hr : run ops = .ok h)
    (e : apiSourceAndMap h i false module_ file = .ok (r, h')) :
    r.map.sources.Nodup ∧ r.map.names.Nodup ∧ (mapPoints r.map).isSome = true :=
  objects_lines_valid (fun op ho => .of_fit (hf op ho)) hr e

example : (∀ op ∈ C22_history, Spec.Op.LinesFit op) ∧
    ((run C22_history).toOption.bind fun h => (apiSourceAndMap h 2 false true none).toOption).isSome = true := by
  refine ⟨?_, by decide +kernel⟩
  intro op hop
  simp only [C22_history, List.mem_cons, List.not_mem_nil, or_false] at hop
  rcases hop with rfl | rfl | rfl | rfl
  · refine ⟨by decide, ⟨fun d hd => ?_, fun hd => (by cases hd)⟩, fun d hd => ?_, fun g hg => (by cases hg)⟩
    · cases hd
      refine ⟨[⟨1, 0, some (0, 0, 0, none)⟩, ⟨1, 2, some (0, 0, 1, none)⟩, ⟨2, 0, some (0, 1, 1, none)⟩],
        by decide +kernel, ?_⟩
      intro s hs x hx
      simp only [List.mem_cons, List.not_mem_nil, or_false] at hs
      rcases hs with rfl | rfl | rfl <;> cases hx <;> decide
    · cases hd; decide
  · trivial
  · trivial
  · trivial

end WS
