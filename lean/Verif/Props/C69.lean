import Verif.Props.C68
import Verif.Props.C43
/-!
# C69: programs that take the list maps of objects and rewrite them

Claim: JavaScript programs build objects, take their list maps, add them to other list maps, rewrite the code
with a prefix or the identity, and so on. The map of `toStringWithSourceMap` attributes every character that is
kept to the file its statements say, and to the line they say or at most `d` lines further down, where `d` is
the number of rewritings one after another, those of `PrefixSource`s and `ReplaceSource`s included. C56 has
the programs that do neither, exactly.
-/

namespace WS
open Spec

/-! ## Spec -/

/-- What is said of a list map: how often it was rewritten, and where its characters are from. -/
structure Spec.Account where
  depth : Nat
  marks : NamedMarks

/-- One behind the other. -/
def Spec.Account.then (a b : Account) : Account := ⟨max a.depth b.depth, a.marks ++ b.marks⟩

/-- What is said of an argument. -/
def Spec.offered (ds : List (Option Account)) (source : Option (List Char)) : LArg → Option Account
  | .str s => some ⟨0, match truthy source with
      | none => plainly s
      | some f => fromFile (some f) 1 1 s⟩
  | .obj j => ds[j]?.join

/-- A text with copies of some texts put in, attributed in any way. -/
inductive Spec.WithAny {β : Type} (ts : List (List Char)) : List (Char × β) → List (Char × β) → Prop
  | nil : WithAny ts [] []
  | keep (x : Char × β) {a b : List (Char × β)} : WithAny ts a b → WithAny ts (x :: a) (x :: b)
  | copy {t a b : List (Char × β)} : t.map Prod.fst ∈ ts → WithAny ts a b → WithAny ts a (t ++ b)

/-- What a statement says of the list-map objects, when the statements `js` were made on the other objects.
Nothing is said of strings put in front (`C30_not_general`), of arrays, and of code rewritten by the
function for tests. A prefix comes with a line of its own where there is code without newline
(`C43_single_line`). -/
def Spec.Recount (js : List JOp) (ds : List (Option Account)) : LOp → List (Option Account) → Prop
  | .newCode s, r => r = ds ++ [some ⟨0, plainly s⟩]
  | .newSource s source _ line, r => r = ds ++ [some ⟨0, fromFile (truthy source) 1 (startLine line) s⟩]
  | .newSingle s source _ line, r => r = ds ++ [some ⟨0, fromFile (truthy source) 0 (startLine line) s⟩]
  | .newEmpty, r => r = ds ++ [some ⟨0, []⟩]
  | .newMap a source _, r => r = ds ++ [offered ds source a]
  | .newArray _, r => r = ds ++ [none]
  | .fromString code sources _ names mappings, r =>
    r = ds ++ [(mapped code sources names mappings).map fun d => ⟨0, d.marks⟩]
  | .listMap j _ module_, r => ∃ d m, JStated (jthings js) (jmade js) module_ (.obj j) d m ∧ r = ds ++ [some ⟨d, m⟩]
  | .add i a source _, r =>
    r = ds.set i (ds[i]?.join.bind fun d => (offered ds source a).map fun b => d.then b)
  | .prepend i a _ _, r =>
    r = ds.set i (match a with
      | .str _ => none
      | .obj j => ds[i]?.join.bind fun d => ds[j]?.join.map fun b => b.then d)
  | .mapCode i f, r => match f, ds[i]?.join with
    | .identical, some d => r = ds.set i none ++ [some ⟨d.depth + 1, d.marks⟩]
    | .prefixed p, some d => ∃ m, WithAny [p, p ++ ['\n']] d.marks m ∧
        r = ds.set i none ++ [some ⟨d.depth + 1, m⟩]
    | _, _ => r = ds.set i none ++ [none]
  | _, r => r = ds

/-- The statement on the other objects, if it is one. -/
def Spec.jsOf : LOp → List JOp
  | .js op => [op]
  | _ => []

/-- What a program says of the list-map objects. -/
def Spec.Recounts (js : List JOp) (ds : List (Option Account)) : List LOp → List (Option Account) → Prop
  | [], r => r = ds
  | op :: ops, r => ∃ ds', Recount js ds op ds' ∧ Recounts (js ++ jsOf op) ds' ops r

/-! ## Rewriting -/

theorem withAny_map {β γ : Type} (g : β → γ) {ts : List (List Char)} {a b : List (Char × β)} (h : WithAny ts a b) :
    WithAny ts (a.map fun x => (x.1, g x.2)) (b.map fun x => (x.1, g x.2)) := by
  induction h with
  | nil => exact .nil
  | keep x _ ih => exact .keep _ ih
  | copy e _ ih =>
    rw [List.map_append]
    refine .copy ?_ ih
    rw [List.map_map]
    exact e

theorem withAny_near {α : Type} {d : Nat} {ts : List (List Char)} {m mid : List (Char × Option (α × Nat))}
    (h : WithAny ts m mid) : ∀ {a : List (Char × Option (α × Nat))}, Nearly d a m →
    ∃ b, WithAny ts a b ∧ Nearly d b mid := by
  induction h with
  | nil =>
    intro a ha
    have : a = [] := List.eq_nil_of_length_eq_zero ha.1.symm
    subst this
    exact ⟨[], .nil, .refl _ _⟩
  | @keep x m mid h ih =>
    intro a ha
    cases a with
    | nil => have := ha.1; simp at this
    | cons y a =>
      obtain ⟨h1, h2⟩ := ha.2 0 y x rfl rfl
      obtain ⟨b, h3, h4⟩ := ih (a := a) ⟨by simpa using ha.1, fun k u v hu hv => ha.2 (k + 1) u v hu hv⟩
      exact ⟨y :: b, .keep y h3, .cons h1 h2 h4⟩
  | copy e h ih =>
    intro a ha
    obtain ⟨b, h3, h4⟩ := ih ha
    exact ⟨_, .copy e h3, (Nearly.refl d _).append h4⟩

/-- `PrefixMappingFunction::map` on marked text. -/
def wasmSk (p : Str) (_ : Unit) (q : Sketch) : Sketch × Unit :=
  (if '\n' ∈ q.map Prod.fst then indentX p q
   else (p ++ ['\n']).map blankMark ++ (if q = [] then [] else p.map blankMark ++ q), ())

theorem blankMark_fst (s : Str) : (s.map blankMark).map Prod.fst = s := by
  simp [Function.comp_def, blankMark]

theorem wasmSk_carries (p : Str) : Carries (fun (_ : Unit) s => (wasmPrefix p s, ())) (wasmSk p) := by
  refine ⟨?_, fun _ _ => rfl, ?_⟩
  · intro st q
    simp only [wasmSk]
    split
    · rename_i h
      rw [indentX_fst p (by rintro rfl; simp at h), C43_indent_partial p _ h]
    · rename_i h
      rw [C43_single_line p _ h, List.map_append, blankMark_fst]
      by_cases hq : q = []
      · subst hq; simp
      · rw [if_neg hq, if_neg (by simpa using hq), List.map_append, blankMark_fst]
        simp
  · intro st q k hk
    simp only [wasmSk] at hk
    have blank : ∀ s : Str, k ∈ s.map blankMark → k.2 = none := by
      intro s h
      obtain ⟨c, -, rfl⟩ := List.mem_map.1 h
      rfl
    split at hk
    · exact .inr (indentX_says p q k hk)
    · rcases List.mem_append.1 hk with hk | hk
      · exact .inl (blank _ hk)
      · split at hk
        · cases hk
        · rcases List.mem_append.1 hk with hk | hk
          · exact .inl (blank _ hk)
          · exact .inr ⟨k, hk, rfl⟩

theorem runSk_unit (F : Unit → Sketch → Sketch × Unit) : ∀ (qs : List Sketch) (u : Unit),
    (runSk F u qs).1 = (qs.map fun q => (F () q).1).flatten
  | [], _ => rfl
  | q :: qs, u => by rw [runSk, List.map_cons, List.flatten_cons, runSk_unit F qs]

theorem withAny_rest {p : Str} {ts : List Str} (hp : p ∈ ts) : ∀ (q : LineMarked) {m r m' : LineMarked},
    Spec.Agrees (indentRestX p (sketch q)) m → WithAny ts r m' → WithAny ts (q ++ r) (m ++ m')
  | [], [], _, _, _, h => h
  | [], _ :: _, _, _, h, _ => h.elim
  | [x], m, r, m', h, h' => by
    have : m = [x] := agrees_sketch (m := [x]) h
    subst this
    exact .keep x h'
  | x :: y :: q, m, r, m', h, h' => by
    have hsk : sketch (x :: y :: q) = (x.1, some x.2) :: (y.1, some y.2) :: sketch q := rfl
    rw [hsk, indentRestX] at h
    cases m with
    | nil => exact h.elim
    | cons z m =>
      obtain ⟨h1, h2, h3⟩ := h
      obtain ⟨a, b, rfl, ha, hb⟩ := agrees_append_left h3
      have hz : z = x := Prod.ext h1.symm (h2 _ rfl)
      subst hz
      have ih := withAny_rest hp (y :: q) hb h'
      have e1 : z :: y :: q ++ r = z :: (y :: q ++ r) := rfl
      have e2 : z :: (a ++ b) ++ m' = z :: (a ++ (b ++ m')) := by simp
      rw [e1, e2]
      refine .keep z ?_
      split at ha
      · refine .copy ?_ ih
        rw [ha.fst]
        simpa [Function.comp_def] using hp
      · cases a with
        | nil => exact ih
        | cons => exact ha.elim

theorem withAny_keep {β : Type} {ts : List Str} {r m' : List (Char × β)} : ∀ (q : List (Char × β)), WithAny ts r m' →
    WithAny ts (q ++ r) (q ++ m')
  | [], h => h
  | x :: q, h => .keep x (withAny_keep q h)

theorem withAny_runs (p : Str) : ∀ (ms : List LineMarked) {m : LineMarked},
    Spec.Agrees ((ms.map fun q => (wasmSk p () (sketch q)).1).flatten) m → WithAny [p, p ++ ['\n']] ms.flatten m
  | [], [], _ => .nil
  | [], _ :: _, h => h.elim
  | q :: ms, m, h => by
    rw [List.map_cons, List.flatten_cons] at h
    obtain ⟨a, b, rfl, ha, hb⟩ := agrees_append_left h
    have ih := withAny_runs p ms hb
    rw [List.flatten_cons]
    simp only [wasmSk] at ha
    split at ha
    · cases q with
      | nil => simp [sketch] at *
      | cons x q =>
        have e : indentX p (sketch (x :: q)) =
            (p.map fun c => (c, some x.2)) ++ indentRestX p (sketch (x :: q)) := rfl
        rw [e] at ha
        obtain ⟨a1, a2, rfl, h1, h2⟩ := agrees_append_left ha
        rw [List.append_assoc]
        refine .copy ?_ (withAny_rest (by simp) (x :: q) h2 ih)
        rw [h1.fst]
        simp [Function.comp_def]
    · obtain ⟨a1, a2, rfl, h1, h2⟩ := agrees_append_left ha
      rw [List.append_assoc]
      refine .copy (by rw [h1.fst, blankMark_fst]; simp) ?_
      split at h2
      · rename_i hq
        have : q = [] := by simpa [sketch] using hq
        subst this
        cases a2 with
        | nil => exact ih
        | cons => exact h2.elim
      · obtain ⟨a3, a4, rfl, h3, h4⟩ := agrees_append_left h2
        have : a4 = q := agrees_sketch h4
        subst this
        rw [List.append_assoc]
        exact .copy (by rw [h3.fst, blankMark_fst]; simp) (withAny_keep _ ih)

theorem wasmPrefixMap_near (p : Str) (m : Slm) (hm : ∀ n ∈ m, n.Merged) :
    ∃ mid, WithAny [p, p ++ ['\n']] (piecesMarks (m.map LNode.piece)) mid ∧
      Nearly 1 mid (piecesMarks ((wasmPrefixMap p m).map LNode.piece)) := by
  obtain ⟨qs, mid, h1, _, h4, h6⟩ := mapGenerated_near (wasmSk_carries p) () hm
  obtain ⟨ms, h5, rfl⟩ := unsketch h1
  rw [runSk_unit, List.map_map] at h4
  exact ⟨mid, by rw [← h5]; exact withAny_runs p ms h4, h6⟩

theorem wasmIdenticalMap_near (m : Slm) (hm : ∀ n ∈ m, n.Merged) :
    Nearly 1 (piecesMarks (m.map LNode.piece)) (piecesMarks ((wasmIdenticalMap m).map LNode.piece)) := by
  have hF : Carries (fun (_ : Unit) (s : Str) => (s, ())) (fun _ q => (q, ())) :=
    ⟨fun _ _ => rfl, fun _ _ => rfl, fun _ q k hk => .inr ⟨k, hk, rfl⟩⟩
  obtain ⟨qs, mid, h1, _, h4, h6⟩ := mapGenerated_near hF () hm
  rw [runSk_unit, List.map_id', h1] at h4
  rw [agrees_sketch h4] at h6
  exact h6

theorem Stood.wasmPrefixed {t : StrTable JVal} {l : Slm} {m : NamedMarks} (h : Stood t l m) (p : Str) :
    ∃ m', Stood t (wasmPrefixMap p l) m' ∧ ∃ mid, WithAny [p, p ++ ['\n']] m mid ∧ Nearly 1 mid m' := by
  refine ⟨_, stood_of (slmMapGenerated_built _ _ h.built) (slmMapGenerated_from1 h.from1)
    (slmMapGenerated_in h.has), ?_⟩
  have e := h.marks
  subst e
  obtain ⟨mid, h1, h2⟩ := wasmPrefixMap_near p l (fun n hn => (h.built n hn).merged)
  exact ⟨named t mid, withAny_map _ h1, h2.map _⟩

theorem Stood.wasmIdentical {t : StrTable JVal} {l : Slm} {m : NamedMarks} (h : Stood t l m) :
    ∃ m', Stood t (wasmIdenticalMap l) m' ∧ Nearly 1 m m' := by
  refine ⟨_, stood_of (slmMapGenerated_built _ _ h.built) (slmMapGenerated_from1 h.from1)
    (slmMapGenerated_in h.has), ?_⟩
  have e := h.marks
  subst e
  exact (wasmIdenticalMap_near l (fun n hn => (h.built n hn).merged)).map _

/-! ## List maps of objects -/

mutual
/-- The list map does not depend on `columns`. -/
theorem Tree.listMap_columns (c c' mod : Bool) : ∀ t : Tree, Tree.listMap c mod t = Tree.listMap c' mod t
  | .str s => rfl
  | .raw v => rfl
  | .original v n i => rfl
  | .prefixed p t => by rw [Tree.listMap, Tree.listMap, Tree.listMap_columns c c' mod t]
  | .replace t cs => by rw [Tree.listMap, Tree.listMap, Tree.listMap_columns c c' mod t]
  | .concat ts => by rw [Tree.listMap, Tree.listMap, Tree.listMaps_columns c c' mod ts]
  | .l2l v n o => rfl
  | .sms s => rfl
theorem Tree.listMaps_columns (c c' mod : Bool) : ∀ ts : List Tree, Tree.listMaps c mod ts = Tree.listMaps c' mod ts
  | [] => rfl
  | t :: ts => by
    have h1 := Tree.listMap_columns c c' mod t
    have h2 := Tree.listMaps_columns c c' mod ts
    cases t <;> simp only [Tree.listMaps, h1, h2]
end

theorem World.listMap_stood {st : List JThing} {made : List JOp} {w w' : World} {A : AHeap} {j : Nat} {o : JObj}
    {columns module_ : Bool} {sl : Slm} (I : w.Inv A st) (L : w.Labels made)
    (hst : ∀ o ∈ w.log, Spec.Op.StableMap o) (hr : ∀ op ∈ made, Spec.JOp.Readable module_ op)
    (hmk : ∀ op ∈ made, Spec.JOp.makes op = true) (ho : w.objs[j]? = some o)
    (e : w.call (.listMap o.ptr columns module_) = .ok (.listMap sl, w')) :
    ∃ m, JLines st made module_ (.obj j) m ∧ Stood w.strs sl m := by
  obtain ⟨h', hn⟩ : ∃ h', apiListMap w.heap o.ptr columns module_ = .ok (sl, h') := by
    simp only [World.call, Op.run] at e
    cases hn : apiListMap w.heap o.ptr columns module_ with
    | error e1 => rw [hn] at e; cases e
    | ok p => rw [hn] at e; simp only [Except.map] at e; cases e; exact ⟨_, rfl⟩
  obtain ⟨t, u, ht⟩ := (api_listMap_iff (stable_of_ops I.log hst) I.abs _ _ _ _).1 ⟨h', hn⟩
  rw [Tree.listMap_columns columns false] at ht
  have hit : Tree.itemMap false module_ t = .ok (.inr sl) := by
    cases t <;> first | (simp only [Tree.itemMap, ht]; rfl) | cases ht
  exact JLines.of_unfolds I L (mod := module_) hr hmk u (.obj j) (tr_obj ho) _ hit

/-! ## Programs -/

/-- What is said of an object is what it is, but for the lines. -/
def Meets (x : Option Account) (y : Option LDesc) : Prop :=
  ∀ a, x = some a → ∃ d, y = some d ∧ Nearly a.depth a.marks d.marks

/-- What is said of the objects is what they are, but for the lines. -/
structure MeetsAll (ds : List (Option Account)) (da : List (Option LDesc)) : Prop where
  len : ds.length = da.length
  each : ∀ (i : Nat) a, ds[i]? = some (some a) → ∃ d, da[i]? = some (some d) ∧ Nearly a.depth a.marks d.marks

theorem Meets.none (y : Option LDesc) : Meets none y := fun a h => by cases h

theorem Meets.exact (m : NamedMarks) (b : Bool) : Meets (some ⟨0, m⟩) (some ⟨m, b⟩) := by
  intro a h; cases h; exact ⟨_, rfl, .refl _ _⟩

theorem MeetsAll.push {ds : List (Option Account)} {da : List (Option LDesc)} (M : MeetsAll ds da)
    {x : Option Account} {y : Option LDesc} (h : Meets x y) : MeetsAll (ds ++ [x]) (da ++ [y]) := by
  refine ⟨by simp [M.len], fun i a hi => ?_⟩
  rw [getElem?_snoc] at hi ⊢
  rw [M.len] at hi
  split at hi
  · rename_i hk
    rw [if_pos hk]
    cases hi
    obtain ⟨d, rfl, h2⟩ := h a rfl
    exact ⟨d, rfl, h2⟩
  · rename_i hk
    rw [if_neg hk]
    exact M.each i a hi

theorem MeetsAll.set {ds : List (Option Account)} {da : List (Option LDesc)} (M : MeetsAll ds da) (k : Nat)
    {x : Option Account} {y : Option LDesc} (h : Meets x y) : MeetsAll (ds.set k x) (da.set k y) := by
  refine ⟨by simp [M.len], fun i a hi => ?_⟩
  rw [List.getElem?_set] at hi ⊢
  rw [M.len] at hi
  split at hi
  · rename_i hk
    rw [if_pos hk]
    split at hi
    · rename_i hl
      cases hi
      obtain ⟨d, rfl, h2⟩ := h a rfl
      exact ⟨d, by rw [if_pos hl], h2⟩
    · cases hi
  · rename_i hk
    rw [if_neg hk]
    exact M.each i a hi

theorem MeetsAll.get {ds : List (Option Account)} {da : List (Option LDesc)} (M : MeetsAll ds da) (i : Nat) :
    Meets ds[i]?.join da[i]?.join := by
  intro a h
  obtain ⟨d, h1, h2⟩ := M.each i a (join_some h)
  exact ⟨d, by rw [h1]; rfl, h2⟩

theorem MeetsAll.argument {ds : List (Option Account)} {da : List (Option LDesc)} (M : MeetsAll ds da)
    (source : Option Str) (a : LArg) : Meets (offered ds source a) (Spec.argument da source a) := by
  cases a with
  | str s => exact Meets.exact _ _
  | obj j => exact M.get j

theorem Meets.then {x x' : Option Account} {y y' : Option LDesc} (h : Meets x y) (h' : Meets x' y') :
    Meets (x.bind fun d => x'.map fun b => d.then b) (y.bind fun d => y'.map fun b => d.then b) := by
  intro a ha
  obtain ⟨c, rfl, ha⟩ := Option.bind_eq_some_iff.1 ha
  obtain ⟨b, rfl, rfl⟩ := Option.map_eq_some_iff.1 ha
  obtain ⟨d, rfl, h1⟩ := h c rfl
  obtain ⟨d', rfl, h2⟩ := h' b rfl
  exact ⟨_, rfl, (h1.mono (Nat.le_max_left ..)).append (h2.mono (Nat.le_max_right ..))⟩

theorem Meets.then' {x x' : Option Account} {y y' : Option LDesc} (h : Meets x y) (h' : Meets x' y') :
    Meets (x.bind fun d => x'.map fun b => b.then d) (y.bind fun d => y'.map fun b => b.then d) := by
  intro a ha
  obtain ⟨c, rfl, ha⟩ := Option.bind_eq_some_iff.1 ha
  obtain ⟨b, rfl, rfl⟩ := Option.map_eq_some_iff.1 ha
  obtain ⟨d, rfl, h1⟩ := h c rfl
  obtain ⟨d', rfl, h2⟩ := h' b rfl
  exact ⟨_, rfl, (h2.mono (Nat.le_max_left ..)).append (h1.mono (Nat.le_max_right ..))⟩

/-- The other objects. -/
structure Backed (w : World) (js : List JOp) : Prop where
  inv : ∃ A, w.Inv A (jthings js)
  labels : w.Labels (jmade js)
  stable : ∀ o ∈ w.log, Spec.Op.StableMap o
  readable : ∀ op ∈ js, Spec.JOp.Readable true op

theorem Backed.nil {w : World} {js : List JOp} (B : Backed w js) : Backed w (js ++ []) := by
  rw [List.append_nil]; exact B

theorem Backed.same {w w' : World} {js : List JOp} (B : Backed w js) (h : w.Same w') : Backed w' js := by
  obtain ⟨A, I⟩ := B.inv
  exact ⟨⟨A, I.same h⟩, B.labels.later h.later (by rw [h.objs]), h.log ▸ B.stable, B.readable⟩

theorem jthings_snoc (js : List JOp) (op : JOp) : jthings (js ++ [op]) = jstep (jthings js) op := by
  simp [jthings]

theorem Backed.js {w w' : World} {js : List JOp} (B : Backed w js) (ok : w.strs.Ok) {op : JOp} {a : JAnswer}
    (hp : op.Proper) (hr : Spec.JOp.Readable true op) (e : op.run w = .ok (a, w')) : Backed w' (js ++ [op]) := by
  obtain ⟨A, I⟩ := B.inv
  obtain ⟨A', I'⟩ := JOp.run_inv I hp e
  have steps := JOp.run_steps w op
  rw [e] at steps
  obtain ⟨l, hl, -, hof⟩ := steps
  refine ⟨⟨A', by rw [jthings_snoc]; exact I'⟩, ?_, ?_, ?_⟩
  · have := JOp.run_labels B.labels I ok e
    rw [jmade, List.filter_append]
    exact this
  · intro o ho
    rw [hl] at ho
    rcases List.mem_append.1 ho with ho | ho
    · exact B.stable o ho
    · have := hof o ho
      cases o <;> try trivial
      obtain ⟨-, n, m, o', i, rfl, -, h1⟩ := this
      obtain ⟨ss, cs, ns, mp, rfl, -⟩ := hr
      obtain ⟨-, d, hd, -⟩ := h1 ss cs ns mp rfl
      exact .inl (by rw [hd]; rfl)
  · intro o ho
    rcases List.mem_append.1 ho with ho | ho
    · exact B.readable o ho
    · rw [List.mem_singleton.1 ho]; exact hr

theorem Backed.call {w w' : World} {js : List JOp} (B : Backed w js) {ptr : Nat} {columns module_ : Bool} {a : Answer}
    (e : w.call (.listMap ptr columns module_) = .ok (a, w')) : Backed w' js := by
  obtain ⟨A, I⟩ := B.inv
  have hs := (World.call_strs e).1
  obtain ⟨h, hr, rfl⟩ := World.call_ok e
  refine ⟨⟨A, I.read rfl e⟩, B.labels.later ⟨⟨_, rfl⟩, .rfl' _⟩ rfl, ?_, B.readable⟩
  intro o ho
  rcases List.mem_append.1 ho with ho | ho
  · exact B.stable o ho
  · rw [List.mem_singleton.1 ho]; trivial

theorem LWorld.names_same (w : LWorld) (source : Option Str) (original : JVal) :
    w.base.Same (w.names source original).2.2.base := by
  simp only [LWorld.names]
  split
  · exact .rfl' _
  · exact (w.base.intern_same _).trans (World.internNew_same _ _)

/-- The state of a program. -/
structure Tracks (w : LWorld) (js : List JOp) (ds : List (Option Account)) : Prop where
  backed : Backed w.base js
  fits : ∃ da, Fits w da ∧ MeetsAll ds da

theorem Tracks.step {w w' : LWorld} {js : List JOp} {ds : List (Option Account)} (T : Tracks w js ds) {op : LOp}
    {a : LAnswer} (hp : ∀ o, op = .js o → o.Proper) (hr : ∀ o, op = .js o → Spec.JOp.Readable true o)
    (e : op.run w = .ok (a, w')) : ∃ ds', Recount js ds op ds' ∧ Tracks w' (js ++ jsOf op) ds' := by
  obtain ⟨B, da, F, M⟩ := T
  have F' := F.run e
  cases op with
  | js op =>
    refine ⟨_, rfl, ?_, _, F', M⟩
    simp only [LOp.run] at e
    split at e
    · cases e
    · rename_i hb
      cases e
      exact B.js F.strs (hp op rfl) (hr op rfl) hb
  | newCode s =>
    refine ⟨_, rfl, ?_, _, F', M.push (Meets.exact _ _)⟩
    cases e
    exact B.nil
  | newSource s source original line =>
    refine ⟨_, rfl, ?_, _, F', M.push (Meets.exact _ _)⟩
    simp only [LOp.run] at e
    show Backed _ (js ++ [])
    rw [List.append_nil]
    split at e
    · cases e; exact B
    · cases e; exact B.same (w.names_same source original)
  | newSingle s source original line =>
    refine ⟨_, rfl, ?_, _, F', M.push (Meets.exact _ _)⟩
    simp only [LOp.run] at e
    show Backed _ (js ++ [])
    rw [List.append_nil]
    split at e
    · cases e; exact B
    · split at e
      · cases e
      · cases e; exact B.same (w.names_same source original)
  | newEmpty =>
    refine ⟨_, rfl, ?_, _, F', M.push (Meets.exact _ _)⟩
    cases e
    exact B.nil
  | newMap a source original =>
    refine ⟨_, rfl, ?_, _, F', M.push (M.argument source a)⟩
    simp only [LOp.run] at e
    show Backed _ (js ++ [])
    rw [List.append_nil]
    split at e
    · cases e; exact B
    · simp only [Except.map_ok_iff, Except.bind_ok_iff] at e
      obtain ⟨w2, ⟨-, -, h1⟩, h2⟩ := e
      cases h2
      simp only [LWorld.add, Except.bind_ok_iff, Except.map_ok_iff] at h1
      obtain ⟨_, -, _, -, _, -, rfl⟩ := h1
      exact B.same ((w.put (.map [])).names_same source original)
  | newArray as =>
    refine ⟨_, rfl, ?_, _, F', M.push (Meets.none _)⟩
    simp only [LOp.run, Except.map_ok_iff] at e
    obtain ⟨_, -, h2⟩ := e
    cases h2
    exact B.nil
  | fromString code sources contents names mappings =>
    refine ⟨_, rfl, ?_, _, F', M.push ?_⟩
    · simp only [LOp.run, Except.map_ok_iff] at e
      obtain ⟨_, -, h2⟩ := e
      cases h2
      show Backed _ (js ++ [])
      rw [List.append_nil]
      exact B.same ((w.base.internAll_same sources).trans (World.internAllNew_same _ contents))
    · intro a ha
      obtain ⟨d, hd, rfl⟩ := Option.map_eq_some_iff.1 ha
      exact ⟨d, hd, .refl _ _⟩
  | listMap j c md =>
    simp only [LOp.run] at e
    split at e
    · cases e
    · rename_i o ho
      split at e
      · cases e
      · split at e
        · cases e
        · rename_i m b hc
          cases e
          obtain ⟨A, I⟩ := B.inv
          have hmk : ∀ op ∈ jmade js, Spec.JOp.makes op = true := fun op h => (List.mem_filter.1 h).2
          have hrd : ∀ op ∈ jmade js, Spec.JOp.Readable md op := by
            intro op h
            have := B.readable op (List.mem_filter.1 h).1
            cases op <;> try trivial
            obtain ⟨ss, cs, ns, mp, h1, h2⟩ := this
            exact ⟨ss, cs, ns, mp, h1, fun _ => h2 rfl⟩
          obtain ⟨m1, h1, h2⟩ := World.listMap_stood I B.labels B.stable hrd hmk ho hc
          obtain ⟨d, o', h3, h4⟩ := JLines.stated h1
          refine ⟨_, ⟨d, o', h3, rfl⟩, (B.call hc).nil, da ++ [some ⟨m1, false⟩], ?_, ?_⟩
          · apply F.put
            · exact .of_eq (World.call_strs hc).1
            · exact rfl
            · intro x hx l hl
              cases hx; cases hl
              rw [(World.call_strs hc).1]
              exact h2
          · apply M.push
            intro a ha
            cases ha
            exact ⟨_, rfl, h4⟩
        · cases e
  | add i a source original =>
    refine ⟨_, rfl, ?_, _, F', M.set i ((M.get i).then (M.argument source a))⟩
    simp only [LOp.run, Except.map_ok_iff] at e
    obtain ⟨w2, h1, h2⟩ := e
    cases h2
    simp only [LWorld.add, Except.bind_ok_iff, Except.map_ok_iff] at h1
    obtain ⟨_, -, _, -, _, -, rfl⟩ := h1
    show Backed _ (js ++ [])
    rw [List.append_nil]
    exact B.same (w.names_same source original)
  | prepend i a source original =>
    refine ⟨_, rfl, ?_, _, F', M.set i ?_⟩
    · simp only [LOp.run, Except.map_ok_iff] at e
      obtain ⟨w2, h1, h2⟩ := e
      cases h2
      simp only [LWorld.prepend, Except.bind_ok_iff, Except.map_ok_iff] at h1
      obtain ⟨_, -, _, -, _, -, rfl⟩ := h1
      show Backed _ (js ++ [])
      rw [List.append_nil]
      exact B.same (w.names_same source original)
    · cases a with
      | str s => exact Meets.none _
      | obj j => exact (M.get i).then' (M.get j)
  | clone i => cases e
  | mapCode i f =>
    simp only [LOp.run] at e
    split at e
    · cases e
    · simp only [Except.bind_ok_iff] at e
      obtain ⟨m, h1, h2⟩ := e
      split at h2
      · cases h2
      · rename_i m' hf
        cases h2
        have ht := LWorld.target_some h1
        have F1 : Fits { w with lists := w.lists.set i .dead } (da.set i none) :=
          F.set (w' := { w with lists := w.lists.set i .dead }) (.rfl' _) rfl (d := none)
            (fun x hx => by cases hx)
        have M1 := M.set i (Meets.none none)
        have quiet : Tracks { w with lists := w.lists.set i .dead ++ [.map m'] } (js ++ jsOf (.mapCode i f))
            (ds.set i none ++ [none]) :=
          ⟨B.nil, _, F', M1.push (Meets.none _)⟩
        have told : ∀ (d : LDesc) (x : Account) (o : NamedMarks), Stood w.base.strs m' o →
            Nearly x.depth x.marks o → Tracks { w with lists := w.lists.set i .dead ++ [.map m'] }
              (js ++ jsOf (.mapCode i f)) (ds.set i none ++ [some x]) := by
          intro d x o h3 h4
          refine ⟨B.nil, da.set i none ++ [some ⟨o, false⟩], ?_, ?_⟩
          · apply F1.put
            · exact .rfl' _
            · exact rfl
            · intro y hy l hl
              cases hy; cases hl
              exact h3
          · apply M1.push
            intro a ha
            cases ha
            exact ⟨_, rfl, h4⟩
        cases hd : ds[i]?.join with
        | none =>
          refine ⟨_, ?_, quiet⟩
          cases f <;> simp [Recount, hd]
        | some x =>
          obtain ⟨d, hd1, hd2⟩ := M.each i x (join_some hd)
          have good := Stood.of (F.good i _ d ht hd1 m rfl)
          cases f with
          | identical =>
            cases hf
            obtain ⟨o, h3, h4⟩ := good.wasmIdentical
            exact ⟨ds.set i none ++ [some ⟨x.depth + 1, x.marks⟩], by simp [Recount, hd],
              told d ⟨x.depth + 1, x.marks⟩ o h3 (hd2.trans h4)⟩
          | prefixed p =>
            cases hf
            obtain ⟨o, h3, mid, h4, h5⟩ := good.wasmPrefixed p
            obtain ⟨b, h6, h7⟩ := withAny_near h4 hd2
            refine ⟨ds.set i none ++ [some ⟨x.depth + 1, b⟩], ?_, told d ⟨x.depth + 1, b⟩ o h3 (h7.trans h5)⟩
            simp only [Recount, hd]
            exact ⟨b, h6, rfl⟩
          | test => exact ⟨_, by simp [Recount], quiet⟩
          | replace => exact ⟨_, by simp [Recount], quiet⟩
  | toString i =>
    refine ⟨_, rfl, ?_, _, F', M⟩
    simp only [LOp.run, Except.map_ok_iff] at e
    obtain ⟨_, -, h2⟩ := e
    cases h2
    exact B.nil
  | render i =>
    refine ⟨_, rfl, ?_, _, F', M⟩
    simp only [LOp.run, Except.map_ok_iff] at e
    obtain ⟨_, -, h2⟩ := e
    cases h2
    show Backed _ (js ++ [])
    rw [List.append_nil]
    exact B.same ⟨rfl, rfl, rfl, rfl, rfl, ⟨[], by simp⟩, fun _ _ h => h⟩

theorem Tracks.runFrom : ∀ {ops : List LOp} {w w' : LWorld} {js : List JOp} {ds : List (Option Account)},
    Tracks w js ds → (∀ o, .js o ∈ ops → o.Proper) → (∀ o, .js o ∈ ops → Spec.JOp.Readable true o) →
    w.runFrom ops = .ok w' → ∃ ds' js', Recounts js ds ops ds' ∧ Tracks w' js' ds'
  | [], _, _, _, _, T, _, _, e => by cases e; exact ⟨_, _, rfl, T⟩
  | op :: ops, w, w', js, ds, T, hp, hr, e => by
    simp only [LWorld.runFrom] at e
    split at e
    · cases e
    · rename_i h1
      obtain ⟨ds1, h2, T1⟩ := T.step (fun o h => hp o (by simp [h])) (fun o h => hr o (by simp [h])) h1
      obtain ⟨ds', js', h3, T'⟩ := Tracks.runFrom T1 (fun o h => hp o (by simp [h])) (fun o h => hr o (by simp [h])) e
      exact ⟨ds', js', ⟨ds1, h2, h3⟩, T'⟩

theorem Tracks.empty : Tracks LWorld.empty [] [] := by
  obtain ⟨A, I⟩ := World.run_inv (ops := []) (by simp) (rfl : World.run [] = .ok World.empty)
  have L := World.run_labels (ops := []) (by simp) (rfl : World.run [] = .ok World.empty)
  have F := Fits.of_run (ops := []) (rfl : LWorld.run [] = .ok LWorld.empty)
  exact ⟨⟨⟨A, I⟩, L, fun o h => (by cases h), (by simp)⟩, _, F, ⟨rfl, fun i a h => by simp at h⟩⟩

/-! ## The claim -/

/-- C69: maps given to `SourceMapSource`s are ordinary objects that can be read. The pair is read at any
later time, provided it was not given to a `SourceMapSource` or assigned to (C54, C55). Missing: what
`Spec.Recount` says nothing of, and maps that were emitted before. -/
theorem C69_partial (ops more : List LOp) (w w1 w2 : LWorld) (i k : Nat)
    (r : LWorld.run ops = .ok w) (hp : ∀ op, .js op ∈ ops → op.Proper)
    (hr : ∀ op, .js op ∈ ops → Spec.JOp.Readable true op)
    (e : (LOp.render i).run w = .ok (.pair k, w1)) (e2 : w1.runFrom more = .ok w2)
    (hg : ∀ op, .js op ∈ more → ¬ op.gives k) (hs : ∀ a, .js (.set k a) ∉ more) :
    ∃ ds, Recounts [] [] ops ds ∧ ∀ a, ds[i]? = some (some a) → ShowsNear w2.base k a.depth a.marks := by
  obtain ⟨ds, js, h1, T⟩ := Tracks.empty.runFrom hp hr r
  refine ⟨ds, h1, fun a ha => ?_⟩
  obtain ⟨-, da, F, M⟩ := T
  obtain ⟨d, hd, hn⟩ := M.each i a ha
  simp only [LOp.run, Except.map_ok_iff] at e
  obtain ⟨m, h2, h3⟩ := e
  cases h3
  exact showsNear hn (World.render_reads (F.good i _ d (LWorld.target_some h2) hd m rfl)
    (.of_runList e2 hg hs))

/-! Non-trivial case: a replacement puts a newline in, the list map of the object gets other nodes, and the
whole is rewritten with a prefix. The last line is attributed one line too far down. -/

/-- The program. -/
def c69Program : List LOp :=
  [.js (.newOriginal "x\ny".toList "a.js".toList), .js (.newReplace (.obj 0)), .js (.insert 1 2 "\n".toList),
   .listMap 1 true true, .newSource "u\nv".toList (some "b.js".toList) none 5,
   .add 0 (.str "\n".toList) none none, .add 0 (.obj 1) none none, .mapCode 0 (.prefixed "> ".toList)]

/-- What it says of the list map of the object. -/
def c69Object : NamedMarks :=
  fromFile (some "a.js".toList) 0 1 "x\n\n".toList ++ fromFile (some "a.js".toList) 1 2 "y".toList

/-- What it says of its last object. -/
def c69Marks : NamedMarks :=
  fromFile (some "a.js".toList) 0 1 "> x\n> \n".toList ++ (fromFile (some "a.js".toList) 0 2 "> \n> y".toList ++
    (plainly "> \n".toList ++ (fromFile (some "b.js".toList) 1 5 "> u\n".toList ++
      fromFile (some "b.js".toList) 0 6 "> \n> v".toList)))

example : (∀ op, .js op ∈ c69Program → op.Proper) ∧ ∀ op, .js op ∈ c69Program → Spec.JOp.Readable true op := by
  refine ⟨?_, ?_⟩
  · intro op h
    simp only [c69Program, List.mem_cons, List.not_mem_nil, or_false, reduceCtorEq, false_or, LOp.js.injEq] at h
    rcases h with rfl | rfl | rfl
    · trivial
    · trivial
    · simp only [JOp.Proper, Spec.Proper]; decide +kernel
  · intro op h
    simp only [c69Program, List.mem_cons, List.not_mem_nil, or_false, reduceCtorEq, false_or, LOp.js.injEq] at h
    rcases h with rfl | rfl | rfl
    all_goals trivial
example : Recounts [] [] c69Program
    [none, some ⟨0, fromFile (some "b.js".toList) 1 5 "u\nv".toList⟩, some ⟨2, c69Marks⟩] := by
  have h1 : JStated (jthings [.newOriginal "x\ny".toList "a.js".toList, .newReplace (.obj 0), .insert 1 2 "\n".toList])
      (jmade [.newOriginal "x\ny".toList "a.js".toList, .newReplace (.obj 0), .insert 1 2 "\n".toList]) true
      (.obj 1) 1 c69Object :=
    .replaced (c := .obj 0) (rs := [⟨2, 1, "\n".toList⟩]) (es := [(⟨2, 1, "\n".toList⟩, 0)]) (by decide +kernel)
      (.original (v := "x\ny".toList) (n := "a.js".toList) rfl) ⟨.refl _, by simp⟩
      ⟨[(⟨2, 2, "\n".toList⟩, [('\n', some (some "a.js".toList, 1))])], ⟨by decide +kernel, by decide +kernel⟩,
        by decide +kernel⟩
  have h2 : WithAny ["> ".toList, "> ".toList ++ ['\n']] (c69Object ++ (plainly "\n".toList ++
      fromFile (some "b.js".toList) 1 5 "u\nv".toList)) c69Marks :=
    .copy (t := fromFile (some "a.js".toList) 0 1 "> ".toList) (by decide +kernel) (.keep _ (.keep _
      (.copy (t := fromFile (some "a.js".toList) 0 1 "> ".toList) (by decide +kernel) (.keep _
      (.copy (t := fromFile (some "a.js".toList) 0 2 "> \n".toList) (by decide +kernel)
      (.copy (t := fromFile (some "a.js".toList) 0 2 "> ".toList) (by decide +kernel) (.keep _
      (.copy (t := plainly "> ".toList) (by decide +kernel) (.keep _
      (.copy (t := fromFile (some "b.js".toList) 1 5 "> ".toList) (by decide +kernel) (.keep _ (.keep _
      (.copy (t := fromFile (some "b.js".toList) 0 6 "> \n".toList) (by decide +kernel)
      (.copy (t := fromFile (some "b.js".toList) 0 6 "> ".toList) (by decide +kernel) (.keep _ .nil)))))))))))))))
  exact ⟨_, rfl, _, rfl, _, rfl, _, ⟨1, c69Object, h1, rfl⟩, _, rfl, _, rfl, _, rfl, _, ⟨c69Marks, h2, rfl⟩, rfl⟩
example : rendered c69Program 2 [(1, 2), (2, 2), (4, 2), (5, 2), (7, 2)] =
    some ("> x\n> \n> \n> y> \n> u\n> \n> v".toList,
      [some (some "a.js".toList, 1), some (some "a.js".toList, 1), some (some "a.js".toList, 2),
       some (some "b.js".toList, 5), some (some "b.js".toList, 7)]) := by decide +kernel

end WS
