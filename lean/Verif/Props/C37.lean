import Verif.Props.C07
import Verif.Props.C36
/-! # C37 Prefixing keeps every character's column-level attribution -/

namespace WS
open Spec

/-- `b` is `a` with prefixes inserted: at most one at each line start and none elsewhere, each from
one place. The flag says whether a line starts here. -/
inductive Spec.Prefixed (pre : List Char) : Bool → Marked → Marked → Prop
  | done (s : Bool) : Prefixed pre s [] []
  | keep {s : Bool} (c : Char) (o : Option Origin) {a b : Marked} :
      Prefixed pre (c == '\n') a b → Prefixed pre s ((c, o) :: a) ((c, o) :: b)
  | insert (o : Option Origin) {a b : Marked} :
      Prefixed pre false a b → Prefixed pre true a (uniform o pre ++ b)

/-- The origin of the first character. -/
def Spec.firstOrigin (m : Marked) : Option Origin := m.head?.bind Prod.snd

/-- Insert the prefix after every newline that is not the end; it comes from where the character
after it comes from (compare `Spec.indentRest`). -/
def Spec.indentRestM (pre : List Char) : Marked → Marked
  | [] => []
  | (c, o) :: rest =>
    (c, o) :: ((if c = '\n' ∧ rest ≠ [] then uniform (firstOrigin rest) pre else []) ++
      indentRestM pre rest)

/-- Indent a text that is not empty (compare `Spec.indent`). -/
def Spec.indentM (pre : List Char) (m : Marked) : Marked :=
  if m = [] then [] else uniform (firstOrigin m) pre ++ indentRestM pre m

theorem uniform_append (o : Option Origin) (a b : Str) :
    uniform o (a ++ b) = uniform o a ++ uniform o b := by simp [uniform]

theorem markedU_cons (s : Str) (o : Option Origin) (L : List (Str × Option Origin)) :
    marked ((s, o) :: L) = uniform o s ++ marked L := by simp [marked, uniform]

theorem prefixed_leaf (pre : Str) (o : Option Origin) {a b : Marked} : ∀ (s : Str) (f : Bool), s ≠ [] →
    Prefixed pre (endsNl s) a b →
    Prefixed pre f (uniform o s ++ a) (uniform o (Spec.indentRest pre s) ++ b)
  | [], _, h, _ => absurd rfl h
  | [c], f, _, h => by
    have : endsNl [c] = (c == '\n') := by simp [endsNl, Bool.beq_eq_decide_eq]
    rw [this] at h
    simpa [uniform, Spec.indentRest] using Prefixed.keep c o h
  | c :: d :: s, f, _, h => by
    have he : endsNl (c :: d :: s) = endsNl (d :: s) := by simp [endsNl]
    rw [he] at h
    have ih := fun f => prefixed_leaf pre o (d :: s) f (by simp) h
    rw [Spec.indentRest]
    by_cases hc : c = '\n'
    · subst hc
      have := Prefixed.keep (s := f) '\n' o (Prefixed.insert o (ih false))
      simpa [uniform, List.append_assoc] using this
    · have := Prefixed.keep (s := f) c o (ih _)
      simpa [uniform, hc, List.append_assoc] using this

theorem prefixLeaves_prefixed (pre : Str) : ∀ (L : List (Str × Option Origin)) (b : Bool),
    Prefixed pre b (marked L) (marked (prefixLeaves pre L b))
  | [], b => .done b
  | (s, o) :: L, b => by
    have ih := prefixLeaves_prefixed pre L (endsNl s)
    rw [prefixLeaves, markedU_cons, markedU_cons, makePrefixed, prefixLoop_eq, uniform_append]
    by_cases hs : s = []
    · subst hs
      have e : endsNl [] = false := rfl
      rw [e] at ih ⊢
      cases b with
      | true => simpa [uniform, Spec.indentRest] using Prefixed.insert o ih
      | false => simpa [uniform, Spec.indentRest] using ih
    · cases b with
      | true =>
        have := Prefixed.insert o (prefixed_leaf pre o s false hs ih)
        simpa [List.append_assoc] using this
      | false => simpa [uniform] using prefixed_leaf pre o s false hs ih

theorem indentRestM_leaf (pre : Str) (o : Option Origin) (a : Marked) : ∀ (s : Str), s ≠ [] →
    indentRestM pre (uniform o s ++ a) = uniform o (Spec.indentRest pre s) ++
      ((if endsNl s = true ∧ a ≠ [] then uniform (firstOrigin a) pre else []) ++ indentRestM pre a)
  | [], h => absurd rfl h
  | [c], _ => by
    simp [uniform, Spec.indentRest, indentRestM, endsNl]
  | c :: d :: s, _ => by
    have he : endsNl (c :: d :: s) = endsNl (d :: s) := by simp [endsNl]
    have ih := indentRestM_leaf pre o a (d :: s) (by simp)
    rw [he, Spec.indentRest]
    show indentRestM pre ((c, o) :: (uniform o (d :: s) ++ a)) = _
    rw [indentRestM, ih]
    have : firstOrigin (uniform o (d :: s) ++ a) = o := by simp [firstOrigin, uniform]
    rw [this]
    by_cases hc : c = '\n'
    · simp [hc, uniform]
    · simp [hc, uniform]

theorem full_marked_ne {L : List (Str × Option Origin)} (h : FullLeaves L) (hL : L ≠ []) :
    marked L ≠ [] := by
  cases L with
  | nil => exact absurd rfl hL
  | cons a L =>
    obtain ⟨s, o⟩ := a
    have : s ≠ [] := h (s, o) (by simp)
    rw [markedU_cons]
    simp [uniform, this]

theorem prefixLeaves_exact (pre : Str) : ∀ (L : List (Str × Option Origin)) (b : Bool), FullLeaves L →
    marked (prefixLeaves pre L b) =
      (if b = true ∧ marked L ≠ [] then uniform (firstOrigin (marked L)) pre else []) ++
        indentRestM pre (marked L)
  | [], b, _ => by simp [prefixLeaves, marked, indentRestM]
  | (s, o) :: L, b, h => by
    have hs : s ≠ [] := h (s, o) (by simp)
    have hL : FullLeaves L := fun l hl => h l (by simp [hl])
    have ih := prefixLeaves_exact pre L (endsNl s) hL
    rw [prefixLeaves, markedU_cons, markedU_cons, makePrefixed, prefixLoop_eq, uniform_append, ih,
      indentRestM_leaf pre o _ s hs]
    have hf : firstOrigin (uniform o s ++ marked L) = o := by
      cases s with
      | nil => exact absurd rfl hs
      | cons c s => simp [firstOrigin, uniform]
    have hn : uniform o s ++ marked L ≠ [] := by simp [uniform, hs]
    rw [hf]
    cases b <;> simp [uniform, hs]

/-- C37. In the node of a `PrefixSource` the characters of the inner node keep their order and their
attributions; what is put between them is the prefix, at line starts only, at most once per line. -/
theorem C37_kept (pre : Str) (n : SmNode) (hn : n.IsNode) :
    Prefixed pre true n.marks (prefixNode pre n).marks := by
  unfold SmNode.marks
  rw [(prefixNode_leaves pre hn).2]
  exact prefixLeaves_prefixed pre n.leaves true

/-- C37, where each prefix comes from: the place of the character it precedes. For inner nodes without
empty strings. -/
theorem C37_exact (pre : Str) (n : SmNode) (hn : n.IsNode) (hf : FullLeaves n.leaves) :
    (prefixNode pre n).marks = indentM pre n.marks := by
  unfold SmNode.marks
  rw [(prefixNode_leaves pre hn).2, prefixLeaves_exact pre _ _ hf, indentM]
  by_cases h : marked n.leaves = []
  · simp [h, indentRestM]
  · simp [h]

/-- Every node read from an object is a `SourceNode`. -/
theorem Tree.node_isNode (cols mod : Bool) : ∀ (t : Tree) (n : SmNode), t.node cols mod = .ok n →
    n.IsNode := by
  intro t n h
  cases t with
  | str s => cases h
  | raw v => cases h; trivial
  | original v a b => cases h; trivial
  | l2l v a b => cases h; trivial
  | sms s =>
    rw [Tree.node] at h
    cases hs : s.node with
    | error e => rw [hs] at h; cases h
    | ok q => rw [hs] at h; cases h; exact (Sms.node_text (n := q.1) (s' := q.2) hs).2.1
  | prefixed p t =>
    rw [Tree.node] at h
    cases hs : t.node cols mod with
    | error e => rw [hs] at h; cases h
    | ok q => rw [hs] at h; cases h; trivial
  | replace t cs =>
    rw [Tree.node] at h
    cases hs : t.node cols mod with
    | error e => rw [hs] at h; cases h
    | ok q =>
      rw [hs] at h
      obtain ⟨n', e, hn, _⟩ := replaceNode_leaves (inner := q) (by
        exact Tree.node_isNode cols mod t q hs) (sortedCalls cs)
      change replaceNode q (sortedCalls cs) = .ok n at h
      rw [e] at h; cases h; exact hn
  | concat ts =>
    rw [Tree.node] at h
    cases hs : Tree.nodes cols mod ts with
    | error e => rw [hs] at h; cases h
    | ok q => rw [hs] at h; cases h; trivial

/-- The node of a `PrefixSource` in terms of that of the wrapped object. -/
theorem prefix_node_iff {ops : List Op} {h : Heap} {i j : Nat} {pre : List Char} {module_ : Bool}
    (hrun : run ops = .ok h) (hst : ∀ op ∈ ops, Spec.Op.StableMap op)
    (hi : (created ops)[i]? = some (.newPrefix pre (.ref j))) (n : SmNode) :
    (∃ h', apiNode h i true module_ = .ok (n, h')) ↔
      ∃ n' h', apiNode h j true module_ = .ok (n', h') ∧ n = prefixNode pre n' := by
  obtain ⟨A, hA, H⟩ := run_abs hrun
  have S := stable_of_ops hA hst
  have D := object_of_created hA hi
  simp only [objOf] at D
  rw [api_node_iff S H]
  constructor
  · rintro ⟨t, hu, hn⟩
    cases hu with
    | @prefixed _ p c t e hc =>
      rw [D] at e; cases e
      rw [Tree.node] at hn
      cases hm : t.node true module_ with
      | error x => rw [hm] at hn; cases hn
      | ok n' =>
        rw [hm] at hn; cases hn
        obtain ⟨h', e⟩ := (api_node_iff S H j true module_ n').2 ⟨t, hc, hm⟩
        exact ⟨n', h', e, rfl⟩
    | raw e => rw [D] at e; cases e
    | original e => rw [D] at e; cases e
    | l2l e => rw [D] at e; cases e
    | sms e => rw [D] at e; cases e
    | concat e => rw [D] at e; cases e
    | replace e => rw [D] at e; cases e
  · rintro ⟨n', h', e, rfl⟩
    obtain ⟨t, hc, hm⟩ := (api_node_iff S H j true module_ n').1 ⟨h', e⟩
    exact ⟨_, .prefixed D hc, by rw [Tree.node, hm]; rfl⟩

/-- C37 for objects: the node of a `PrefixSource` keeps the attributions of the node of the wrapped
object. -/
theorem C37_objects (ops : List Op) (h : Heap) (i j : Nat) (pre : List Char) (module_ : Bool)
    (m : Marked) (hrun : run ops = .ok h) (hst : ∀ op ∈ ops, Spec.Op.StableMap op)
    (hi : (created ops)[i]? = some (.newPrefix pre (.ref j))) (hm : NodeAs h module_ (.ref i) m) :
    ∃ m', NodeAs h module_ (.ref j) m' ∧ Prefixed pre true m' m := by
  obtain ⟨n, h', e, rfl⟩ := hm
  obtain ⟨n', h1, e', rfl⟩ := (prefix_node_iff hrun hst hi n).1 ⟨h', e⟩
  refine ⟨n'.marks, ⟨n', h1, e', rfl⟩, C37_kept pre n' ?_⟩
  obtain ⟨A, hA, H⟩ := run_abs hrun
  obtain ⟨t, _, ht⟩ := (api_node_iff (stable_of_ops hA hst) H j true module_ n').1 ⟨h1, e'⟩
  exact Tree.node_isNode _ _ t n' ht

/-- C37 for objects, exactly, if no `ReplaceSource` and no empty string item is involved in the
wrapped object. -/
theorem C37_objects_exact (ops : List Op) (h : Heap) (i j : Nat) (pre : List Char) (module_ : Bool)
    (m : Marked) (hrun : run ops = .ok h) (hst : ∀ op ∈ ops, Spec.Op.StableMap op)
    (hi : (created ops)[i]? = some (.newPrefix pre (.ref j)))
    (hne : ∀ k, Contains h k (.ref j) → NoEmptyChunk ops k) :
    NodeAs h module_ (.ref i) m ↔ ∃ m', NodeAs h module_ (.ref j) m' ∧ m = indentM pre m' := by
  obtain ⟨A, hA, H⟩ := run_abs hrun
  have key : ∀ n' h', apiNode h j true module_ = .ok (n', h') →
      (prefixNode pre n').marks = indentM pre n'.marks := by
    intro n' h' e
    obtain ⟨t, hu, ht⟩ := (api_node_iff (stable_of_ops hA hst) H j true module_ n').1 ⟨h', e⟩
    have := Seen.full hA H true module_ hu.seen hne n' ht
    exact C37_exact pre n' this.2 this.1
  constructor
  · rintro ⟨n, h', e, rfl⟩
    obtain ⟨n', h1, e', rfl⟩ := (prefix_node_iff hrun hst hi n).1 ⟨h', e⟩
    exact ⟨_, ⟨n', h1, e', rfl⟩, key n' h1 e'⟩
  · rintro ⟨m', ⟨n', h1, e', rfl⟩, rfl⟩
    obtain ⟨h', e⟩ := (prefix_node_iff hrun hst hi _).2 ⟨n', h1, e', rfl⟩
    exact ⟨_, h', e, key n' h1 e'⟩

/-! Non-trivial case: a line that starts inside one chunk, one that starts at the next. -/

/-- A prefixed concatenation. -/
def C37_history : List Op :=
  [.newOriginal "a\n".toList 5 6, .newConcat, .add 1 (.str "x\ny\n".toList), .add 1 (.ref 0),
   .newPrefix "> ".toList (.ref 1)]

example : (run C37_history).toOption.bind (fun h => (apiNode h 2 true true).toOption.map
      fun r => r.1.marks) =
    some [('>', none), (' ', none), ('x', none), ('\n', none), ('>', none), (' ', none), ('y', none),
      ('\n', none), ('>', some ⟨5, 1, 0, none⟩), (' ', some ⟨5, 1, 0, none⟩),
      ('a', some ⟨5, 1, 0, none⟩), ('\n', some ⟨5, 1, 0, none⟩)] := by decide +kernel
example : indentM "> ".toList (uniform none "x\ny\n".toList ++ uniform (some ⟨5, 1, 0, none⟩) "a\n".toList)
    = [('>', none), (' ', none), ('x', none), ('\n', none), ('>', none), (' ', none), ('y', none),
      ('\n', none), ('>', some ⟨5, 1, 0, none⟩), (' ', some ⟨5, 1, 0, none⟩),
      ('a', some ⟨5, 1, 0, none⟩), ('\n', some ⟨5, 1, 0, none⟩)] := by decide +kernel
example : (created C37_history)[2]? = some (.newPrefix "> ".toList (.ref 1)) := by decide +kernel

end WS
