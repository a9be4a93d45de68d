import Verif.Proofs.RewriteEdit
import Verif.Props.C08
/-! # C44 Line-level prefixing keeps the line of every character -/

namespace WS
open Spec

/-- Insert the prefix after every newline that is not the end; it gets what is said of the character
after it (compare `Spec.indentRest`). -/
def Spec.indentRestX {β : Type} (pre : List Char) : List (Char × β) → List (Char × β)
  | [] => []
  | [x] => [x]
  | x :: y :: rest =>
    x :: ((if x.1 = '\n' then pre.map fun c => (c, y.2) else []) ++ indentRestX pre (y :: rest))

/-- Indent a text that is not empty (compare `Spec.indent`). -/
def Spec.indentX {β : Type} (pre : List Char) : List (Char × β) → List (Char × β)
  | [] => []
  | x :: rest => (pre.map fun c => (c, x.2)) ++ indentRestX pre (x :: rest)

theorem indentRestX_fst {β : Type} (p : Str) : ∀ q : List (Char × β),
    (indentRestX p q).map Prod.fst = indentRest p (q.map Prod.fst)
  | [] => rfl
  | [x] => by simp [indentRestX, indentRest]
  | x :: y :: rest => by
    have ih := indentRestX_fst p (y :: rest)
    have e : indentRest p (List.map Prod.fst (x :: y :: rest)) =
        x.1 :: ((if x.1 = '\n' ∧ (y.1 :: rest.map Prod.fst) ≠ [] then p else []) ++
          indentRest p (List.map Prod.fst (y :: rest))) := rfl
    rw [indentRestX, List.map_cons, List.map_append, ih, e]
    by_cases h : x.1 = '\n' <;> simp [h, Function.comp_def]

theorem indentX_fst {β : Type} (p : Str) {q : List (Char × β)} (hq : q ≠ []) :
    (indentX p q).map Prod.fst = indent p (q.map Prod.fst) := by
  cases q with
  | nil => exact absurd rfl hq
  | cons x q =>
    rw [indentX, List.map_append, indentRestX_fst, indent]
    simp [Function.comp_def]

theorem indentRestX_map {β γ : Type} (p : Str) (g : β → γ) : ∀ q : List (Char × β),
    indentRestX p (q.map fun k => (k.1, g k.2)) = (indentRestX p q).map fun k => (k.1, g k.2)
  | [] => rfl
  | [x] => rfl
  | x :: y :: rest => by
    have ih := indentRestX_map p g (y :: rest)
    simp only [List.map_cons, indentRestX, List.map_append] at ih ⊢
    rw [ih]
    by_cases h : x.1 = '\n' <;> simp [h]

theorem indentX_map {β γ : Type} (p : Str) (g : β → γ) (q : List (Char × β)) :
    indentX p (q.map fun k => (k.1, g k.2)) = (indentX p q).map fun k => (k.1, g k.2) := by
  cases q with
  | nil => rfl
  | cons x q =>
    have := indentRestX_map p g (x :: q)
    simp only [List.map_cons, indentX, List.map_append] at this ⊢
    rw [this]
    simp

theorem indentRestX_says {β : Type} (p : Str) : ∀ (q : List (Char × β)), ∀ k ∈ indentRestX p q, ∃ e ∈ q, k.2 = e.2
  | [], k, h => by cases h
  | [x], k, h => ⟨k, h, rfl⟩
  | x :: y :: rest, k, h => by
    rw [indentRestX] at h
    rcases List.mem_cons.1 h with rfl | h
    · exact ⟨_, by simp, rfl⟩
    · rcases List.mem_append.1 h with h | h
      · split at h
        · obtain ⟨c, _, rfl⟩ := List.mem_map.1 h
          exact ⟨y, by simp, rfl⟩
        · cases h
      · obtain ⟨e, he, h2⟩ := indentRestX_says p (y :: rest) k h
        exact ⟨e, List.mem_cons_of_mem _ he, h2⟩

theorem indentX_says {β : Type} (p : Str) (q : List (Char × β)) : ∀ k ∈ indentX p q, ∃ e ∈ q, k.2 = e.2 := by
  intro k h
  cases q with
  | nil => cases h
  | cons x q =>
    rw [indentX] at h
    rcases List.mem_append.1 h with h | h
    · obtain ⟨c, _, rfl⟩ := List.mem_map.1 h
      exact ⟨x, by simp, rfl⟩
    · exact indentRestX_says p _ k h

/-- Prefixing a piece, with what is said of it. -/
def prefixSk (p : Str) (_ : Unit) (q : Sketch) : Sketch × Unit :=
  (if q = [] then p.map fun c => (c, none) else indentX p q, ())

theorem indent_tidy {p t : Str} (hp : '\n' ∉ p) (ht : '\n' ∉ t.dropLast) : '\n' ∉ (indent p t).dropLast := by
  have : indentRest p t = t := by
    induction t with
    | nil => rfl
    | cons c t ih =>
      rw [indentRest]
      cases t with
      | nil => simp [indentRest]
      | cons d t =>
        rw [List.dropLast_cons_of_ne_nil (by simp), List.mem_cons, not_or] at ht
        rw [ih ht.2, if_neg (fun h => ht.1 h.1.symm)]
        rfl
  rw [indent, this]
  cases t with
  | nil =>
    intro h
    rw [List.append_nil] at h
    exact hp ((List.dropLast_sublist p).mem h)
  | cons c t =>
    rw [List.dropLast_append_of_ne_nil (by simp), List.mem_append, not_or]
    exact ⟨hp, ht⟩

theorem prefixSk_lifts {p : Str} (hp : '\n' ∉ p) : Lifts (fun _ => True) (prefixMap p) (prefixSk p) := by
  have text : ∀ (st : Unit) (q : Sketch), (prefixSk p st q).1.map Prod.fst = indent p (q.map Prod.fst) := by
    intro _ q
    by_cases hq : q = []
    · subst hq
      simp [prefixSk, indent, indentRest, Function.comp_def]
    · simp only [prefixSk, if_neg hq, indentX_fst p hq]
  refine ⟨fun _ _ _ => trivial, ?_, fun _ _ => rfl, ?_, ?_⟩
  · intro st q
    rw [text]
    simp only [prefixMap, makePrefixed_eq]
  · intro st q k hk
    by_cases hq : q = []
    · subst hq
      simp only [prefixSk, if_pos] at hk
      obtain ⟨c, _, rfl⟩ := List.mem_map.1 hk
      exact .inl rfl
    · simp only [prefixSk, if_neg hq] at hk
      exact .inr (indentX_says p q k hk)
  · intro st q _ hq
    apply lateFree_of_tidy
    rw [text]
    exact indent_tidy hp hq

theorem runSk_prefix (p : Str) : ∀ (qs : List Sketch) (u : Unit),
    (runSk (prefixSk p) u qs).1 = (qs.map fun q => (prefixSk p () q).1).flatten
  | [], _ => rfl
  | q :: qs, u => by rw [runSk, List.map_cons, List.flatten_cons, runSk_prefix p qs]

theorem indentRestX_append_nl {β : Type} (p : Str) : ∀ (a b : List (Char × β)),
    (a.map Prod.fst).getLast? = some '\n' → b ≠ [] → indentRestX p (a ++ b) = indentRestX p a ++ indentX p b
  | [], b, h, _ => by cases h
  | [x], b, h, hb => by
    cases b with
    | nil => exact absurd rfl hb
    | cons y b =>
      simp only [List.map_cons, List.map_nil, List.getLast?_singleton, Option.some.injEq] at h
      simp [indentRestX, indentX, h]
  | x :: y :: a, b, h, hb => by
    have ih := indentRestX_append_nl p (y :: a) b (by simpa using h) hb
    have e : indentRestX p (x :: y :: a ++ b) =
        x :: ((if x.1 = '\n' then p.map fun c => (c, y.2) else []) ++ indentRestX p (y :: a ++ b)) := rfl
    rw [e, ih, indentRestX]
    simp

theorem indentRestX_nil {β : Type} : ∀ q : List (Char × β), indentRestX [] q = q
  | [] => rfl
  | [x] => rfl
  | x :: y :: rest => by rw [indentRestX, indentRestX_nil (y :: rest)]; simp

theorem indentX_nil {β : Type} (q : List (Char × β)) : indentX [] q = q := by
  cases q with
  | nil => rfl
  | cons x q => rw [indentX, indentRestX_nil]; rfl

theorem aligned_indentX (p : Str) : ∀ (qs : List Sketch), p = [] ∨ Aligned (qs.map (List.map Prod.fst)) →
    qs.flatten ≠ [] → (qs.map fun q => (prefixSk p () q).1).flatten = indentX p qs.flatten
  | [], _, h => absurd rfl h
  | [q], _, h => by
    have : q ≠ [] := by simpa using h
    simp [prefixSk, this]
  | q :: r :: qs, h, hne => by
    rcases h with rfl | h
    · have : ∀ q : Sketch, (prefixSk [] () q).1 = q := by
        intro q
        simp only [prefixSk, indentX_nil]
        split
        · rename_i h; simp [h]
        · rfl
      simp only [this, indentX_nil]
      simp
    · have h2 : (r :: qs).flatten ≠ [] := by
        intro e
        apply h.2.1
        have := congrArg (List.map Prod.fst) e
        simpa [List.map_flatten] using this
      have ih := aligned_indentX p (r :: qs) (.inr h.2.2) h2
      have hq : q ≠ [] := by rintro rfl; have := h.1; simp at this
      rw [List.map_cons, List.flatten_cons, ih, List.flatten_cons (l := q)]
      have e1 : (prefixSk p () q).1 = indentX p q := by simp [prefixSk, hq]
      rw [e1]
      cases q with
      | nil => exact absurd rfl hq
      | cons x q =>
        have e2 : indentX p (x :: q ++ (r :: qs).flatten) =
            (p.map fun c => (c, x.2)) ++ indentRestX p (x :: q ++ (r :: qs).flatten) := rfl
        rw [e2, indentX, indentRestX_append_nl p _ _ h.1 h2]
        simp

/-- A text with copies of `p` put in, attributed in any way. -/
inductive Spec.WithCopies {β : Type} (p : List Char) : List (Char × β) → List (Char × β) → Prop
  | nil : WithCopies p [] []
  | keep (x : Char × β) {a b : List (Char × β)} : WithCopies p a b → WithCopies p (x :: a) (x :: b)
  | copy {t a b : List (Char × β)} : t.map Prod.fst = p → WithCopies p a b → WithCopies p a (t ++ b)

theorem agrees_append_left : ∀ {s t : Sketch} {m : LineMarked}, Agrees (s ++ t) m →
    ∃ a b, m = a ++ b ∧ Agrees s a ∧ Agrees t b
  | [], t, m, h => ⟨[], m, rfl, trivial, h⟩
  | _ :: _, _, [], h => h.elim
  | (c, q) :: s, t, (d, o) :: m, ⟨h1, h2, h3⟩ => by
    obtain ⟨a, b, rfl, ha, hb⟩ := agrees_append_left h3
    exact ⟨(d, o) :: a, b, rfl, ⟨h1, h2, ha⟩, hb⟩

theorem Spec.Agrees.fst : ∀ {s : Sketch} {m : LineMarked}, Agrees s m → m.map Prod.fst = s.map Prod.fst
  | [], [], _ => rfl
  | [], _ :: _, h => h.elim
  | _ :: _, [], h => h.elim
  | (c, q) :: s, (d, o) :: m, h => by
    rw [List.map_cons, List.map_cons, Spec.Agrees.fst h.2.2]
    exact congrArg (· :: _) h.1.symm

theorem withCopies_rest (p : Str) : ∀ (q : LineMarked) {m r m' : LineMarked},
    Agrees (indentRestX p (sketch q)) m → WithCopies p r m' → WithCopies p (q ++ r) (m ++ m')
  | [], [], _, _, _, h => h
  | [], _ :: _, _, _, h, _ => h.elim
  | [x], m, r, m', h, h' => by
    have : m = [x] := agrees_sketch (m := [x]) h
    subst this
    exact .keep x h'
  | x :: y :: q, m, r, m', h, h' => by
    have hsk : sketch (x :: y :: q) = (x.1, some x.2) :: (y.1, some y.2) :: sketch q := rfl
    rw [hsk, indentRestX] at h
    cases m with
    | nil => exact h.elim
    | cons z m =>
      obtain ⟨h1, h2, h3⟩ := h
      obtain ⟨a, b, rfl, ha, hb⟩ := agrees_append_left h3
      have hz : z = x := Prod.ext h1.symm (h2 _ rfl)
      subst hz
      have ih := withCopies_rest p (y :: q) hb h'
      have e1 : z :: y :: q ++ r = z :: (y :: q ++ r) := rfl
      have e2 : z :: (a ++ b) ++ m' = z :: (a ++ (b ++ m')) := by simp
      rw [e1, e2]
      refine .keep z ?_
      split at ha
      · refine .copy ?_ ih
        rw [ha.fst]
        simp [Function.comp_def]
      · cases a with
        | nil => exact ih
        | cons => exact ha.elim

theorem withCopies_runs (p : Str) : ∀ (ms : List LineMarked) {m : LineMarked},
    Agrees ((ms.map fun q => (prefixSk p () (sketch q)).1).flatten) m → WithCopies p ms.flatten m
  | [], [], _ => .nil
  | [], _ :: _, h => h.elim
  | q :: ms, m, h => by
    rw [List.map_cons, List.flatten_cons] at h
    obtain ⟨a, b, rfl, ha, hb⟩ := agrees_append_left h
    have ih := withCopies_runs p ms hb
    rw [List.flatten_cons]
    cases q with
    | nil =>
      refine .copy ?_ ih
      rw [ha.fst]
      simp [prefixSk, sketch, Function.comp_def]
    | cons x q =>
      have e : (prefixSk p () (sketch (x :: q))).1 =
          (p.map fun c => (c, some x.2)) ++ indentRestX p (sketch (x :: q)) := rfl
      rw [e] at ha
      obtain ⟨a1, a2, rfl, h1, h2⟩ := agrees_append_left ha
      rw [List.append_assoc]
      refine .copy ?_ (withCopies_rest p (x :: q) h2 ih)
      rw [h1.fst]
      simp [Function.comp_def]

theorem unsketch : ∀ {qs : List Sketch} {m : LineMarked}, qs.flatten = sketch m →
    ∃ ms : List LineMarked, ms.flatten = m ∧ qs = ms.map sketch
  | [], m, h => by
    have : m = [] := by simpa [sketch] using h.symm
    exact ⟨[], this.symm, rfl⟩
  | q :: qs, m, h => by
    rw [List.flatten_cons, sketch, eq_comm, List.map_eq_append_iff] at h
    obtain ⟨a, b, rfl, ha, hb⟩ := h
    obtain ⟨ms, rfl, rfl⟩ := unsketch (m := b) hb.symm
    exact ⟨a :: ms, rfl, by rw [List.map_cons, sketch, ha]⟩

/-- C44 for list maps: every character is still there, from the same line of the same source, and
between them stand copies of the prefix. -/
theorem C44_kept_partial (p : List Char) (m : Slm) (hp : '\n' ∉ p) (hm : ∀ n ∈ m, n.Merged)
    (hr : NoRepeat (piecesMarks (m.map LNode.piece))) :
    WithCopies p (piecesMarks (m.map LNode.piece)) (piecesMarks ((prefixListMap p m).map LNode.piece)) := by
  obtain ⟨_, qs, h1, _, _, h4⟩ := mapGenerated_drawn (prefixSk_lifts hp) () trivial hm hr
  obtain ⟨ms, h5, rfl⟩ := unsketch h1
  rw [runSk_prefix, List.map_map] at h4
  rw [← h5]
  exact withCopies_runs p ms h4

/-- C44 for list maps whose pieces are lines: the prefix stands in front of every line and comes from
where the character behind it comes from. -/
theorem C44_exact_partial (p : List Char) (m : Slm) (hp : '\n' ∉ p) (hm : ∀ n ∈ m, n.Merged)
    (hr : NoRepeat (piecesMarks (m.map LNode.piece))) (ha : p = [] ∨ Aligned (normCodes m))
    (hne : slmText m ≠ []) :
    piecesMarks ((prefixListMap p m).map LNode.piece) = indentX p (piecesMarks (m.map LNode.piece)) := by
  obtain ⟨_, qs, h1, h2, _, h4⟩ := mapGenerated_drawn (prefixSk_lifts hp) () trivial hm hr
  rw [runSk_prefix, aligned_indentX p qs (by rw [h2]; exact ha), h1] at h4
  · apply agrees_sketch
    rw [sketch, ← indentX_map]
    exact h4
  · intro e
    rw [e] at h1
    apply hne
    have := congrArg (List.map Prod.fst) h1
    rw [slm_pieces_text, ← piecesMarks_fst]
    simpa [sketch, Function.comp_def] using this.symm

/-! ## Objects -/

/-- The list map of a `PrefixSource` in terms of that of the wrapped object. -/
theorem prefix_listMap_iff {ops : List Op} {h : Heap} {i j : Nat} {pre : List Char} {module_ : Bool}
    (hrun : run ops = .ok h) (hst : ∀ op ∈ ops, Spec.Op.StableMap op)
    (hi : (created ops)[i]? = some (.newPrefix pre (.ref j))) (l : Slm) :
    (∃ h', apiListMap h i false module_ = .ok (l, h')) ↔
      ∃ l' h', apiListMap h j false module_ = .ok (l', h') ∧ l = prefixListMap pre l' := by
  obtain ⟨A, hA, H⟩ := run_abs hrun
  have S := stable_of_ops hA hst
  have D := object_of_created hA hi
  simp only [objOf] at D
  rw [api_listMap_iff S H]
  constructor
  · rintro ⟨t, hu, hn⟩
    cases hu with
    | @prefixed _ p c t e hc =>
      rw [D] at e; cases e
      rw [Tree.listMap] at hn
      cases hm : t.listMap false module_ with
      | error x => rw [hm] at hn; cases hn
      | ok n' =>
        rw [hm] at hn; cases hn
        obtain ⟨h', e⟩ := (api_listMap_iff S H j false module_ n').2 ⟨t, hc, hm⟩
        exact ⟨n', h', e, rfl⟩
    | raw e => rw [D] at e; cases e
    | original e => rw [D] at e; cases e
    | l2l e => rw [D] at e; cases e
    | sms e => rw [D] at e; cases e
    | concat e => rw [D] at e; cases e
    | replace e => rw [D] at e; cases e
  · rintro ⟨n', h', e, rfl⟩
    obtain ⟨t, hc, hm⟩ := (api_listMap_iff S H j false module_ n').1 ⟨h', e⟩
    exact ⟨_, .prefixed D hc, by rw [Tree.listMap, hm]; rfl⟩

/-- List maps read from objects keep their counters. -/
theorem api_listMap_merged {ops : List Op} {h : Heap} {j : Nat} {cols module_ : Bool} {l : Slm} {h' : Heap}
    (hrun : run ops = .ok h) (e : apiListMap h j cols module_ = .ok (l, h')) : ∀ n ∈ l, n.Merged := by
  obtain ⟨A, hA, H⟩ := run_abs hrun
  obtain ⟨t, _, ht⟩ := hListMap_seen A cols module_ _ _ _ _ _ _ H e
  exact fun n hn => ((Tree.listMap_text cols module_ t l ht).1 n hn).merged

/-- C44 for objects: the list map of a `PrefixSource` keeps the source and line of every character of
the list map of the wrapped object; nothing but copies of the prefix is put in. Full statement: for
every wrapped object. Missing: wrapped objects two lines of which in a row come from the same line of
a source, and prefixes with newlines; see `C44_not_general`. -/
theorem C44_objects_partial (ops : List Op) (h : Heap) (i j : Nat) (pre : List Char) (module_ : Bool)
    (m m' : LineMarked) (hrun : run ops = .ok h) (hst : ∀ op ∈ ops, Spec.Op.StableMap op)
    (hi : (created ops)[i]? = some (.newPrefix pre (.ref j))) (hp : '\n' ∉ pre)
    (hm : MapAs h module_ (.ref i) m) (hm' : MapAs h module_ (.ref j) m') (hr : NoRepeat m') :
    WithCopies pre m' m := by
  obtain ⟨l, h1, e, rfl⟩ := hm
  obtain ⟨l', h2, e', rfl⟩ := hm'
  obtain ⟨l2, h3, e2, rfl⟩ := (prefix_listMap_iff hrun hst hi l).1 ⟨h1, e⟩
  rw [e'] at e2; cases e2
  exact C44_kept_partial pre l' hp (api_listMap_merged hrun e') hr

/-- C44 for objects, exactly, if the wrapped object hands out its text line by line (`Spec.LineWise`)
and is not empty: the prefix stands in front of every line and has the line of what follows. -/
theorem C44_linewise_partial (ops : List Op) (h : Heap) (i j : Nat) (pre : List Char) (module_ : Bool)
    (m m' : LineMarked) (hrun : run ops = .ok h) (hst : ∀ op ∈ ops, Spec.Op.StableMap op)
    (hi : (created ops)[i]? = some (.newPrefix pre (.ref j))) (hp : '\n' ∉ pre) (he : EditsUnnested ops)
    (hl : ∀ (k : Nat) (p : List Char) (c : Src), (created ops)[k]? = some (.newPrefix p c) →
      LineWise ops h module_ c)
    (hm' : MapAs h module_ (.ref j) m') (hr : NoRepeat m') (hne : m' ≠ []) :
    MapAs h module_ (.ref i) m ↔ m = indentX pre m' := by
  obtain ⟨l', h2, e', rfl⟩ := hm'
  obtain ⟨A, hA, H⟩ := run_abs hrun
  obtain ⟨t, hs, ht⟩ := hListMap_seen A false module_ _ _ _ _ _ _ H e'
  have hlm := (hs.lineWise hA H he module_ hl).2 (hl i pre _ hi) l' ht
  have key := C44_exact_partial pre l' hp (api_listMap_merged hrun e') hr (.inr hlm.aligned.1) (by
    rw [slm_pieces_text, ← piecesMarks_fst]
    simpa using hne)
  obtain ⟨h3, e3⟩ := (prefix_listMap_iff hrun hst hi (prefixListMap pre l')).2 ⟨l', h2, e', rfl⟩
  constructor
  · rintro ⟨l, h1, e, rfl⟩
    rw [e3] at e; cases e
    exact key
  · rintro rfl
    exact ⟨_, h3, e3, key⟩

/-- What the list map of object `i` says after a history. -/
def lineMarksAfter (ops : List Op) (i : Nat) : Option LineMarked :=
  match run ops with
  | .ok h => (apiListMap h i false true).toOption.map fun p => piecesMarks (p.1.map LNode.piece)
  | .error _ => none

/-- C44 fails in general: two lines that come from one line of a source are taken for two lines of it
when they are merged with the line before (`src/source_list_map/single_line_node.rs:56-72`). -/
theorem C44_not_general :
    piecesMarks ((prefixListMap ">".toList
      [.single (LSingle.new "x\n".toList (some 1) none 1), .single (LSingle.new "a\nb".toList (some 1) none 2)]).map
        LNode.piece) =
      [('>', some (1, 1)), ('x', some (1, 1)), ('\n', some (1, 1)), ('>', some (1, 2)), ('a', some (1, 2)),
        ('\n', some (1, 2)), ('>', some (1, 3)), ('b', some (1, 3))] ∧
    piecesMarks ([.single (LSingle.new "x\n".toList (some 1) none 1),
      .single (LSingle.new "a\nb".toList (some 1) none 2)].map LNode.piece) =
      [('x', some (1, 1)), ('\n', some (1, 1)), ('a', some (1, 2)), ('\n', some (1, 2)), ('b', some (1, 2))] := by
  decide +kernel

/-! Non-trivial case: two sources and a plain line, prefixed twice. -/

/-- The history. -/
def C44_history : List Op :=
  [.newOriginal "a\nb\n".toList 3 4, .newL2l "c\nd".toList 5 6, .newConcat, .add 2 (.ref 0),
    .add 2 (.str "-\n".toList), .add 2 (.ref 1), .newPrefix "> ".toList (.ref 2), .newPrefix "*".toList (.ref 3)]

example : lineMarksAfter C44_history 3 = some
    [('>', some (3, 1)), (' ', some (3, 1)), ('a', some (3, 1)), ('\n', some (3, 1)),
     ('>', some (3, 2)), (' ', some (3, 2)), ('b', some (3, 2)), ('\n', some (3, 2)),
     ('>', none), (' ', none), ('-', none), ('\n', none),
     ('>', some (5, 1)), (' ', some (5, 1)), ('c', some (5, 1)), ('\n', some (5, 1)),
     ('>', some (5, 2)), (' ', some (5, 2)), ('d', some (5, 2))] := by decide +kernel

example : lineMarksAfter C44_history 4 = (lineMarksAfter C44_history 3).map (indentX "*".toList) := by
  decide +kernel

/-- The condition on what is wrapped can be computed. -/
def repeats : LineMarked → Bool
  | ('\n', some o) :: (c, p) :: rest => p == some o || repeats ((c, p) :: rest)
  | _ :: rest => repeats rest
  | [] => false

theorem noRepeat_of_repeats : ∀ {m : LineMarked}, repeats m = false → NoRepeat m := by
  intro m h x y o c e
  induction x generalizing m with
  | nil =>
    rw [e, List.nil_append, repeats] at h
    simp at h
  | cons a x ih =>
    subst e
    apply ih (m := x ++ ('\n', some o) :: (c, some o) :: y) _ rfl
    obtain ⟨b, z, hbz⟩ : ∃ b z, x ++ ('\n', some o) :: (c, some o) :: y = b :: z := by
      cases x with
      | nil => exact ⟨_, _, rfl⟩
      | cons b x => exact ⟨_, _, rfl⟩
    rw [List.cons_append, hbz] at h
    rw [hbz]
    obtain ⟨a1, a2⟩ := a
    obtain ⟨b1, b2⟩ := b
    rw [repeats.eq_def] at h
    split at h
    · rename_i e; cases e
      simp only [Bool.or_eq_false_iff] at h
      exact h.2
    · rename_i e; cases e; exact h
    · rename_i e; cases e

example : ∃ m, lineMarksAfter C44_history 2 = some m ∧ NoRepeat m := by
  cases h : lineMarksAfter C44_history 2 with
  | none =>
    have : (lineMarksAfter C44_history 2).isSome = true := by decide +kernel
    rw [h] at this; cases this
  | some m =>
    refine ⟨m, rfl, noRepeat_of_repeats ?_⟩
    have : (lineMarksAfter C44_history 2).map repeats = some false := by decide +kernel
    rw [h] at this
    simpa using this

end WS
