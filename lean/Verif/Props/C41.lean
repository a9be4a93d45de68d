import Verif.Props.C30
import Verif.Props.C36
/-! # C41 Line-level concatenation keeps every item's attribution -/

namespace WS
open Spec

/-- The list map of `src` has the characters `m` with their sources and lines; a plain string has
none. -/
def Spec.MapAs (h : Heap) (module_ : Bool) : Src → LineMarked → Prop
  | .str s, m => m = s.map fun c => (c, none)
  | .ref j, m => ∃ l h', apiListMap h j false module_ = .ok (l, h') ∧ piecesMarks (l.map LNode.piece) = m

/-- The same of a list, in order. -/
def Spec.MapsAs (h : Heap) (module_ : Bool) : List Src → List LineMarked → Prop
  | [], [] => True
  | c :: cs, m :: ms => MapAs h module_ c m ∧ MapsAs h module_ cs ms
  | _, _ => False

/-- What an item of a concatenation contributes. -/
def itemMarks : Str ⊕ Slm → LineMarked
  | .inl s => s.map fun c => (c, none)
  | .inr l => piecesMarks (l.map LNode.piece)

theorem slmAddStr_marks (m : Slm) (s : Str) :
    piecesMarks ((slmAddStr m s none none).map LNode.piece) =
      piecesMarks (m.map LNode.piece) ++ s.map fun c => (c, none) := by
  obtain ⟨m', e, h⟩ := C30_add m s none none
  cases e
  exact h

theorem concatMaps_marks : ∀ (xs : List (Str ⊕ Slm)) (m : Slm),
    piecesMarks ((concatMaps m xs).map LNode.piece) =
      piecesMarks (m.map LNode.piece) ++ (xs.map itemMarks).flatten
  | [], m => by simp [concatMaps]
  | .inl s :: xs, m => by
    rw [concatMaps, concatMaps_marks xs, slmAddStr_marks]
    simp [itemMarks]
  | .inr l :: xs, m => by
    rw [concatMaps, concatMaps_marks xs]
    simp [itemMarks, piecesMarks]

theorem slmAddStr_ok {m : Slm} (hm : ∀ n ∈ m, n.Ok) (s : Str) : ∀ n ∈ slmAddStr m s none none, n.Ok := by
  unfold slmAddStr
  simp only [Option.isSome_none, Bool.false_eq_true, if_false]
  intro n hn
  split at hn
  · rcases List.mem_append.1 hn with hn | hn
    · exact hm n ((List.dropLast_sublist m).mem hn)
    · rw [List.mem_singleton.1 hn]; trivial
  · rcases List.mem_append.1 hn with hn | hn
    · exact hm n hn
    · rw [List.mem_singleton.1 hn]; trivial

theorem concatMaps_ok : ∀ (xs : List (Str ⊕ Slm)) (m : Slm), (∀ n ∈ m, n.Ok) →
    (∀ l, Sum.inr l ∈ xs → ∀ n ∈ l, LNode.Ok n) → ∀ n ∈ concatMaps m xs, n.Ok
  | [], _, hm, _ => hm
  | .inl s :: xs, m, hm, hx => by
    rw [concatMaps]
    exact concatMaps_ok xs _ (slmAddStr_ok hm s) (fun l hl => hx l (by simp [hl]))
  | .inr l :: xs, m, hm, hx => by
    rw [concatMaps]
    refine concatMaps_ok xs _ ?_ (fun l hl => hx l (by simp [hl]))
    intro n hn
    rcases List.mem_append.1 hn with hn | hn
    · exact hm n hn
    · exact hx l (by simp) n hn

/-- `list_map()` succeeds exactly with the list map of the tree. -/
theorem api_listMap_iff {A : AHeap} (hst : A.Stable) {h : Heap} (H : Abs A h) (i : Nat) (cols mod : Bool)
    (n : Slm) : (∃ h', apiListMap h i cols mod = .ok (n, h')) ↔
      ∃ t, Unfolds A (.ref i) t ∧ t.listMap cols mod = .ok n := by
  constructor
  · rintro ⟨h', e⟩
    obtain ⟨t, hs, _⟩ := hListMap_seen A cols mod _ _ _ _ _ _ H e
    obtain ⟨t', hu, _⟩ := hs.text
    obtain ⟨g, _, e'⟩ := api_listMap hst H cols mod hu
    rw [e] at e'
    cases hn : t'.listMap cols mod with
    | error x => rw [hn] at e'; cases e'
    | ok n' => rw [hn] at e'; cases e'; exact ⟨t', hu, hn⟩
  · rintro ⟨t, hu, hn⟩
    obtain ⟨g, _, e'⟩ := api_listMap hst H cols mod hu
    rw [hn] at e'
    exact ⟨g, e'⟩

theorem mapAs_iff {A : AHeap} (hst : A.Stable) {h : Heap} (H : Abs A h) (mod : Bool) (src : Src)
    (m : LineMarked) : MapAs h mod src m ↔
      ∃ t, Unfolds A src t ∧ ∃ x, Tree.itemMap false mod t = .ok x ∧ itemMarks x = m := by
  cases src with
  | str s =>
    constructor
    · rintro rfl
      exact ⟨_, .str s, _, rfl, rfl⟩
    · rintro ⟨t, hu, n, hn, rfl⟩
      cases hu
      cases hn
      rfl
  | ref j =>
    have key : ∀ {t : Tree} (x : Str ⊕ Slm), Unfolds A (.ref j) t →
        (Tree.itemMap false mod t = .ok x ↔ ∃ l, t.listMap false mod = .ok l ∧ x = .inr l) := by
      intro t x hu
      have : Tree.itemMap false mod t = (t.listMap false mod).map .inr := by cases hu <;> rfl
      rw [this]
      cases t.listMap false mod with
      | error e => simp [Except.map]
      | ok l =>
        simp only [Except.map, Except.ok.injEq]
        exact ⟨fun e => ⟨l, rfl, e.symm⟩, fun ⟨l', e, e'⟩ => by rw [e, e']⟩
    constructor
    · rintro ⟨l, h', e, rfl⟩
      obtain ⟨t, hu, hn⟩ := (api_listMap_iff hst H j false mod l).1 ⟨h', e⟩
      exact ⟨t, hu, .inr l, (key _ hu).2 ⟨l, hn, rfl⟩, rfl⟩
    · rintro ⟨t, hu, x, hn, rfl⟩
      obtain ⟨l, hl, rfl⟩ := (key _ hu).1 hn
      obtain ⟨h', e⟩ := (api_listMap_iff hst H j false mod l).2 ⟨t, hu, hl⟩
      exact ⟨l, h', e, rfl⟩

theorem mapsAs_iff {A : AHeap} (hst : A.Stable) {h : Heap} (H : Abs A h) (mod : Bool) :
    ∀ (cs : List Src) (ms : List LineMarked), MapsAs h mod cs ms ↔
      ∃ ts : List Tree, ts.length = cs.length ∧
        (∀ (k : Nat) (c : Src) (t : Tree), cs[k]? = some c → ts[k]? = some t → Unfolds A c t) ∧
        ∃ xs, allM (Tree.itemMap false mod) ts = .ok xs ∧ xs.map itemMarks = ms
  | [], [] => by
    simp only [MapsAs, true_iff]
    exact ⟨[], rfl, by simp, [], rfl, rfl⟩
  | [], m :: ms => by
    simp only [MapsAs, false_iff]
    rintro ⟨ts, hl, _, ns, hns, e⟩
    have : ts = [] := by simpa using hl
    subst this
    cases hns
    cases e
  | c :: cs, [] => by
    simp only [MapsAs, false_iff]
    rintro ⟨ts, hl, _, ns, hns, e⟩
    cases ts with
    | nil => simp at hl
    | cons t ts =>
      rw [allM] at hns
      have : ns = [] := by simpa using e
      subst this
      cases ht : Tree.itemMap false mod t with
      | error x => rw [ht] at hns; cases hns
      | ok n =>
        rw [ht] at hns
        cases hr : allM (Tree.itemMap false mod) ts with
        | error x => rw [hr] at hns; cases hns
        | ok ns => rw [hr] at hns; cases hns
  | c :: cs, m :: ms => by
    simp only [MapsAs, mapAs_iff hst H, mapsAs_iff hst H mod cs ms]
    constructor
    · rintro ⟨⟨t, hu, n, hn, rfl⟩, ts, hl, hk, ns, hns, rfl⟩
      refine ⟨t :: ts, by simp [hl], ?_, n :: ns, by simp [allM, hn, hns, Except.bind, Except.map], rfl⟩
      intro k c' t' hc ht
      cases k with
      | zero => simp at hc ht; subst hc ht; exact hu
      | succ k => exact hk k c' t' (by simpa using hc) (by simpa using ht)
    · rintro ⟨ts, hl, hk, ns, hns, e⟩
      cases ts with
      | nil => simp at hl
      | cons t ts =>
        rw [allM] at hns
        cases ht : Tree.itemMap false mod t with
        | error x => rw [ht] at hns; cases hns
        | ok n =>
          rw [ht] at hns
          cases hr : allM (Tree.itemMap false mod) ts with
          | error x => rw [hr] at hns; cases hns
          | ok ns' =>
            rw [hr] at hns; cases hns
            simp only [List.map_cons, List.cons.injEq] at e
            exact ⟨⟨t, hk 0 c t rfl rfl, n, ht, e.1⟩, ts, by simpa using hl,
              fun k c t hc ht => hk (k + 1) c t hc ht, ns', hr, e.2⟩

/-- C41. The characters of the list map of a `ConcatSource`, each with its source and line, are those of
the list maps of its items, one item after the other; plain string items have no origin. The items are
determined by the `add` calls (`Spec.items`). -/
theorem C41_concat_marks (ops : List Op) (h : Heap) (i : Nat) (module_ : Bool) (m : LineMarked)
    (hrun : run ops = .ok h) (hst : ∀ op ∈ ops, Spec.Op.StableMap op)
    (hi : (created ops)[i]? = some .newConcat) :
    MapAs h module_ (.ref i) m ↔ ∃ ms, MapsAs h module_ (items ops i) ms ∧ m = ms.flatten := by
  obtain ⟨A, hA, H⟩ := run_abs hrun
  have S := stable_of_ops hA hst
  have D := object_of_created hA hi
  simp only [objOf] at D
  rw [mapAs_iff S H]
  have marks : ∀ xs : List (Str ⊕ Slm), itemMarks (.inr (concatMaps [] xs)) = (xs.map itemMarks).flatten := by
    intro xs
    show piecesMarks _ = _
    rw [concatMaps_marks]
    rfl
  constructor
  · rintro ⟨t, hu, n, hn, rfl⟩
    cases hu with
    | @concat _ cs ts e hl hk =>
      rw [D] at e; cases e
      change (Tree.listMap false module_ (.concat ts)).map Sum.inr = .ok n at hn
      rw [Tree.listMap, Tree.listMaps_eq] at hn
      cases hns : allM (Tree.itemMap false module_) ts with
      | error x => rw [hns] at hn; cases hn
      | ok ns =>
        rw [hns] at hn; cases hn
        exact ⟨_, (mapsAs_iff S H module_ _ _).2 ⟨ts, hl, hk, ns, hns, rfl⟩, marks ns⟩
    | raw e => rw [D] at e; cases e
    | original e => rw [D] at e; cases e
    | l2l e => rw [D] at e; cases e
    | sms e => rw [D] at e; cases e
    | prefixed e => rw [D] at e; cases e
    | replace e => rw [D] at e; cases e
  · rintro ⟨ms, hms, rfl⟩
    obtain ⟨ts, hl, hk, ns, hns, rfl⟩ := (mapsAs_iff S H module_ _ _).1 hms
    refine ⟨_, .concat D hl hk, .inr (concatMaps [] ns), ?_, marks ns⟩
    show (Tree.listMap false module_ (.concat ts)).map Sum.inr = _
    rw [Tree.listMap, Tree.listMaps_eq, hns]
    rfl

/-! ## Emitted maps -/

/-- What a mapped character shows does not depend on the text before. -/
theorem shown_stays : ∀ (m : LineMarked) (cur : Option (Int × Nat)) (k : Nat) (c : Char) (x : Int × Nat),
    (shown none m)[k]? = some (c, some x) → (shown cur m)[k]? = some (c, some x) := by
  have key : ∀ (m : LineMarked) (a b : Option (Int × Nat)), (a = none ∨ a = b) →
      ∀ (k : Nat) (c : Char) (x : Int × Nat), (shown a m)[k]? = some (c, some x) →
        (shown b m)[k]? = some (c, some x) := by
    intro m
    induction m with
    | nil => intro a b _ k c x h; simp [shown] at h
    | cons p m ih =>
      obtain ⟨d, o⟩ := p
      intro a b hab k c x h
      rcases hab with rfl | rfl
      · cases k with
        | zero =>
          simp only [shown, List.getElem?_cons_zero, Option.some.injEq, Prod.mk.injEq, Option.or_none] at h ⊢
          refine ⟨h.1, ?_⟩
          rw [h.2]; rfl
        | succ k =>
          simp only [shown, List.getElem?_cons_succ] at h ⊢
          refine ih _ _ ?_ k c x h
          by_cases hd : d = '\n'
          · simp [hd]
          · simp only [if_neg hd, Option.or_none]
            cases o with
            | none => exact .inl rfl
            | some y => exact .inr rfl
      · exact h
  intro m cur
  exact key m none cur (.inl rfl)

/-- The text an item contributes. -/
def itemText : Str ⊕ Slm → Str
  | .inl s => s
  | .inr l => slmText l

theorem itemMarks_fst (x : Str ⊕ Slm) : (itemMarks x).map Prod.fst = itemText x := by
  cases x with
  | inl s => simp [itemMarks, itemText, Function.comp_def]
  | inr l => rw [itemMarks, piecesMarks_fst, itemText, slm_pieces_text]

/-- C41 in terms of emitted maps. Look any character of item `k` up in the map of the concatenation: if
the item's own map says where it comes from, the answer is the same. -/
theorem C41_concat_map (xs : List (Str ⊕ Slm)) (hok : ∀ l, Sum.inr l ∈ xs → ∀ n ∈ l, LNode.Ok n)
    (file file' : Option Int) (k : Nat) (l : Slm) (hk : xs[k]? = some (.inr l)) :
    ∃ ps ps', mapPoints (slmToStringWithSourceMap (concatMaps [] xs) file).map = some ps ∧
      mapPoints (slmToStringWithSourceMap l file').map = some ps' ∧
      ∀ j o, j < (slmText l).length →
        lookup ps' (posFromB (1, 0) ((slmText l).take j)).1 (posFromB (1, 0) ((slmText l).take j)).2 = some o →
        lookup ps (posFromB (1, 0) (((xs.take k).map itemText).flatten ++ (slmText l).take j)).1
          (posFromB (1, 0) (((xs.take k).map itemText).flatten ++ (slmText l).take j)).2 = some o := by
  obtain ⟨ps, h1, h2⟩ := C12_lookup_partial (concatMaps [] xs) file
    (concatMaps_ok xs [] (by simp) hok)
  obtain ⟨ps', h1', h2'⟩ := C12_lookup_partial l file' (hok l (List.mem_of_getElem? hk))
  refine ⟨ps, ps', h1, h1', ?_⟩
  intro j o hj ho
  rw [concatMaps_marks] at h2
  have hfst : (piecesMarks (l.map LNode.piece)).map Prod.fst = slmText l := itemMarks_fst (.inr l)
  have hlen : (shown none (piecesMarks (l.map LNode.piece))).length = (slmText l).length := by
    rw [← List.length_map (f := Prod.fst), shown_fst, hfst]
  obtain ⟨c, q, hcq⟩ : ∃ c q, (shown none (piecesMarks (l.map LNode.piece)))[j]? = some (c, q) :=
    ⟨_, _, List.getElem?_eq_getElem (by omega)⟩
  have e' := h2' j c q hcq
  rw [List.map_take, shown_fst, hfst, ho] at e'
  cases q with
  | none => cases e'
  | some x =>
    have hsplit : (xs.map itemMarks).flatten = ((xs.take k).map itemMarks).flatten ++
        (piecesMarks (l.map LNode.piece) ++ ((xs.drop (k + 1)).map itemMarks).flatten) := by
      have : xs = xs.take k ++ .inr l :: xs.drop (k + 1) := by
        obtain ⟨hlt, he⟩ := List.getElem?_eq_some_iff.1 hk
        rw [← he, List.getElem_cons_drop, List.take_append_drop]
      conv => lhs; rw [this]
      simp [itemMarks]
    have hb : (((xs.take k).map itemMarks).flatten).map Prod.fst = ((xs.take k).map itemText).flatten := by
      rw [List.map_flatten, List.map_map]
      congr 2
      funext x
      exact itemMarks_fst x
    have hempty : piecesMarks (([] : Slm).map LNode.piece) = [] := rfl
    rw [hempty, List.nil_append, hsplit, shown_append, shown_append] at h2
    have hbl : (shown none ((xs.take k).map itemMarks).flatten).map Prod.fst =
        ((xs.take k).map itemText).flatten := by rw [shown_fst, hb]
    have hin := shown_stays (piecesMarks (l.map LNode.piece)) (endCur none ((xs.take k).map itemMarks).flatten)
      j c x hcq
    have hlen2 : (shown (endCur none ((xs.take k).map itemMarks).flatten)
        (piecesMarks (l.map LNode.piece))).length = (slmText l).length := by
      rw [← List.length_map (f := Prod.fst), shown_fst, hfst]
    have e := h2 ((shown none ((xs.take k).map itemMarks).flatten).length + j) c (some x) (by
      rw [List.getElem?_append_right (by omega), Nat.add_sub_cancel_left,
        List.getElem?_append_left (by omega), hin])
    rw [List.take_append, List.take_of_length_le (by omega), Nat.add_sub_cancel_left,
      List.take_append_of_le_length (by omega), List.map_append, hbl, List.map_take (f := Prod.fst), shown_fst, hfst] at e
    rw [e, ← e']

/-! Non-trivial case: items that share a line, a string between them, multi-byte text. -/

/-- Items. -/
def C41_sample : List (Str ⊕ Slm) :=
  [.inr (l2lListMap "a\né".toList 7 70), .inl "+".toList, .inr (originalListMap "b\nc".toList 8 80)]

example : ∀ l, Sum.inr l ∈ C41_sample → ∀ n ∈ l, LNode.Ok n := by
  intro l hl n hn
  simp only [C41_sample, List.mem_cons, List.not_mem_nil, or_false, Sum.inr.injEq] at hl
  rcases hl with rfl | hl | rfl
  · rw [List.mem_singleton.1 hn]; exact ⟨rfl, fun _ => Nat.le_refl 1⟩
  · cases hl
  · rw [List.mem_singleton.1 hn]; exact ⟨rfl, fun _ => Nat.le_refl 1⟩

example : mapPoints (slmToStringWithSourceMap (concatMaps [] C41_sample) none).map = some
    [⟨1, 0, some ⟨7, 1, 0, none⟩⟩, ⟨2, 0, some ⟨7, 2, 0, none⟩⟩, ⟨2, 3, some ⟨8, 1, 0, none⟩⟩,
      ⟨3, 0, some ⟨8, 2, 0, none⟩⟩] := by decide +kernel

/-- A history that concatenates sources. -/
def C41_history : List Op :=
  [.newL2l "a\né".toList 7 70, .newOriginal "b\nc".toList 8 80, .newConcat, .add 2 (.ref 0),
    .add 2 (.str "+".toList), .source 2, .add 2 (.ref 1)]

example : (match run C41_history with
    | .ok h => (apiListMap h 2 false true).toOption.map fun p => piecesMarks (p.1.map LNode.piece)
    | .error _ => none) = some
      [('a', some (7, 1)), ('\n', some (7, 1)), ('é', some (7, 2)), ('+', none), ('b', some (8, 1)),
        ('\n', some (8, 1)), ('c', some (8, 2))] := by decide +kernel

end WS
