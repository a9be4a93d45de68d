import Verif.Proofs.Mentions
import Verif.Proofs.Sane
import Verif.Props.C63
/-!
# C65: what the column maps of a program say about edited code

Claim: the map of `sourceAndMap()` of an object made by a program, `ReplaceSource`s included, attributes
every character that was not put in by a request to the file, line and column that the program's statements
say (`JPlaces`), provided nothing is deleted in front of code that comes from an earlier place.
-/

namespace WS
open Spec

/-! ## Spec: what the statements of a program say -/

/-- Edits listed from right to left, each applied to what lies left of the one before. Nothing is said about
where their texts come from. -/
def Spec.applyRightP : PlacedMarks → List Edit → PlacedMarks
  | rem, [] => rem
  | rem, e :: es =>
    applyRightP ((rem.take e.stop.toNat).take e.start.toNat) es ++ (e.text.map fun c => (c, none)) ++
      rem.drop e.stop.toNat

/-- The characters of a source with where they come from, where the statements say that. -/
inductive Spec.JCarries (st : List JThing) (made : List JOp) : JSrc → PlacedMarks → Prop where
  | str (s : List Char) : JCarries st made (.str s) (s.map fun c => (c, none))
  | leaf {j : Nat} {v : List Char} {x : List (List Char)} {m : PlacedMarks} : st[j]? = some (.leaf v x) →
      JPlaces st made (.obj j) m → JCarries st made (.obj j) m
  | prefixed {j : Nat} {p : List Char} {c : JSrc} {m m' : PlacedMarks} : st[j]? = some (.prefixed p c) →
      JCarries st made c m → PrefixedP p true m m' → (Unreplaced st false c → m' = indentP p m) →
      JCarries st made (.obj j) m'
  | replaced {j : Nat} {c : JSrc} {rs : List JRequest} {es : List (JRequest × Nat)} {m : PlacedMarks} :
      st[j]? = some (.replaced c rs) → RightToLeft rs es → JCarries st made c m →
      JCarries st made (.obj j) (applyRightP m (es.map fun e => e.1.edit))
  | joined {j : Nat} {items : List JSrc} {ms : List PlacedMarks} :
      st[j]? = some (.joined items) → ms.length = items.length →
      (∀ (k : Nat) (i : JSrc) (m : PlacedMarks), items[k]? = some i → ms[k]? = some m → JCarries st made i m) →
      JCarries st made (.obj j) ms.flatten

/-- The code a source is made of, before requests and prefixes, with where it comes from. -/
inductive Spec.JUnedited (st : List JThing) (made : List JOp) : JSrc → PlacedMarks → Prop where
  | str (s : List Char) : JUnedited st made (.str s) (s.map fun c => (c, none))
  | leaf {j : Nat} {v : List Char} {x : List (List Char)} {m : PlacedMarks} : st[j]? = some (.leaf v x) →
      JPlaces st made (.obj j) m → JUnedited st made (.obj j) m
  | prefixed {j : Nat} {p : List Char} {c : JSrc} {m : PlacedMarks} : st[j]? = some (.prefixed p c) →
      JUnedited st made c m → JUnedited st made (.obj j) m
  | replaced {j : Nat} {c : JSrc} {rs : List JRequest} {m : PlacedMarks} : st[j]? = some (.replaced c rs) →
      JUnedited st made c m → JUnedited st made (.obj j) m
  | joined {j : Nat} {items : List JSrc} {ms : List PlacedMarks} :
      st[j]? = some (.joined items) → ms.length = items.length →
      (∀ (k : Nat) (i : JSrc) (m : PlacedMarks), items[k]? = some i → ms[k]? = some m → JUnedited st made i m) →
      JUnedited st made (.obj j) ms.flatten

/-- `p` is not after `q`: it is in a file that is mentioned earlier, or in the same one and not after it. -/
def Spec.PlaceOrder (V : List JVal) (p q : Place) : Prop :=
  V.idxOf p.file < V.idxOf q.file ∨ (p.file = q.file ∧ (p.line < q.line ∨ p.line = q.line ∧ p.col ≤ q.col))

/-- The places do not go back. -/
def Spec.Forwards (V : List JVal) (m : PlacedMarks) : Prop :=
  (m.filterMap Prod.snd).Pairwise (PlaceOrder V)

instance (V : List JVal) (p q : Place) : Decidable (PlaceOrder V p q) := by unfold PlaceOrder; infer_instance
instance (V : List JVal) (m : PlacedMarks) : Decidable (Forwards V m) := by unfold Forwards; infer_instance

/-- A string or a `RawSource`, not empty. -/
def Spec.Plain (made : List JOp) (src : JSrc) : Prop :=
  (∃ s, src = .str s ∧ s ≠ []) ∨ ∃ j v, src = .obj j ∧ made[j]? = some (.newRaw v) ∧ v ≠ []

/-- Nothing can be deleted directly in front of code from an earlier place: the code does not go back; or no
`ReplaceSource` is in there; or the items that have one in them, but the last, are followed by plain text. -/
inductive Spec.Orderly (st : List JThing) (made : List JOp) (V : List JVal) : JSrc → Prop where
  | forwards {src : JSrc} {u : PlacedMarks} : JUnedited st made src u → Forwards V u → Orderly st made V src
  | unreplaced {src : JSrc} : Unreplaced st true src → Orderly st made V src
  | prefixed {j : Nat} {p : List Char} {c : JSrc} : st[j]? = some (.prefixed p c) → Orderly st made V c →
      Orderly st made V (.obj j)
  | joined {j : Nat} {items : List JSrc} : st[j]? = some (.joined items) →
      (∀ i ∈ items, Orderly st made V i) →
      (∀ (k : Nat) (i : JSrc), items[k]? = some i → Unreplaced st true i ∨ k + 1 = items.length ∨
        ∃ i', items[k + 1]? = some i' ∧ Plain made i') →
      Orderly st made V (.obj j)

/-- Requests do not end before they begin. -/
def Spec.JOp.Ahead : JOp → Prop
  | .replace _ a b _ => a.floor ≤ b.floor + 1
  | _ => True

/-- The pair `k` has the text of `m`, and its map gives each of the characters the file, line and column that
`m` gives it, if any. -/
def Spec.KeepsPlaces (w : World) (k : Nat) (m : PlacedMarks) : Prop :=
  Reads w k .source (.text (m.map Prod.fst)) ∧
  ∃ l ns s ps, Reads w k .sources (.list l) ∧ Reads w k .names (.list ns) ∧ Reads w k .mappings (.text s) ∧
    points (idTable l.length) (idTable ns.length) s = some ps ∧
    ∀ i c p, m[i]? = some (c, some p) →
      (lookup ps (posAfter ((m.take i).map Prod.fst)).1 (posAfter ((m.take i).map Prod.fst)).2).map
        (fun x => (l[x.source.toNat]?, x.line, x.col)) = some (some p.file, p.line, p.col)

/-! ## Requests -/

/-- No request ends before it begins. -/
def AllAhead (st : List JThing) : Prop :=
  ∀ (j : Nat) (c : JSrc) (rs : List JRequest), st[j]? = some (.replaced c rs) →
    ∀ r ∈ rs, r.first.floor ≤ r.last.floor + 1

theorem AllAhead.push {st : List JThing} (h : AllAhead st) {x : JThing}
    (hx : ∀ c rs, x = .replaced c rs → rs = []) : AllAhead (st ++ [x]) := by
  intro j c rs e r hr
  rw [getElem?_snoc] at e
  split at e
  · simp only [Option.some.injEq] at e
    rw [hx c rs e] at hr; cases hr
  · exact h j c rs e r hr

theorem AllAhead.addTo {st : List JThing} (h : AllAhead st) (k : Nat) (i : JSrc) : AllAhead (addTo st k i) := by
  unfold Spec.addTo
  split
  · intro j c rs e r hr
    rw [List.getElem?_set] at e
    split at e
    · split at e <;> cases e
    · exact h j c rs e r hr
  · exact h

theorem AllAhead.askTo {st : List JThing} (h : AllAhead st) (k : Nat) {q : JRequest}
    (hq : q.first.floor ≤ q.last.floor + 1) : AllAhead (askTo st k q) := by
  unfold Spec.askTo
  split
  · rename_i c0 rs0 hk
    intro j c rs e r hr
    rw [List.getElem?_set] at e
    split at e
    · split at e
      · cases e
        rcases List.mem_append.1 hr with hr | hr
        · exact h _ _ _ hk r hr
        · rw [List.mem_singleton.1 hr]; exact hq
      · cases e
    · exact h j c rs e r hr
  · exact h

theorem AllAhead.step {st : List JThing} (h : AllAhead st) {op : JOp} (ho : Spec.JOp.Ahead op) :
    AllAhead (jstep st op) := by
  cases op with
  | newRaw v => exact h.push fun c rs e => by cases e
  | newOriginal v n => exact h.push fun c rs e => by cases e
  | newL2l v n o => exact h.push fun c rs e => by cases e
  | newSms v n m o i => exact h.push fun c rs e => by cases e
  | newPrefix p c => exact h.push fun c rs e => by cases e
  | newReplace c => exact h.push fun c rs e => by cases e; rfl
  | newConcat items =>
    have : ∀ (is : List JSrc) (s : List JThing) (k : Nat), AllAhead s →
        AllAhead (is.foldl (fun s i => Spec.addTo s k i) s) := by
      intro is
      induction is with
      | nil => intro s k h; exact h
      | cons i is ih => intro s k h; exact ih _ k (h.addTo k i)
    exact this _ _ _ (h.push fun c rs e => by cases e)
  | add j i => exact h.addTo j i
  | replace j a b t => exact h.askTo j ho
  | insert j p t =>
    refine h.askTo j ?_
    show p.floor ≤ (p - 1).floor + 1
    have : (p - 1).floor = p.floor - 1 := by
      have e : p - 1 = p + ((-1 : Int) : Rat) := by
        have : ((-1 : Int) : Rat) = -1 := rfl
        rw [this]; grind
      rw [e, floor_add_int]; omega
    omega
  | _ => exact h

theorem allAhead : ∀ (ops : List JOp) {st : List JThing}, AllAhead st → (∀ op ∈ ops, Spec.JOp.Ahead op) →
    AllAhead (ops.foldl jstep st)
  | [], _, h, _ => h
  | op :: ops, _, h, ho => allAhead ops (h.step (ho op (by simp))) fun o hm => ho o (by simp [hm])

/-! ## Claims that hold -/

/-- The characters are the same and what is said of them is so. -/
def Backs (t : StrTable JVal) : PlacedMarks → Marked → Prop
  | [], [] => True
  | (c, o) :: k, (d, x) :: m => c = d ∧ (∀ p, o = some p → x.map (place t) = some p) ∧ Backs t k m
  | _, _ => False

section
variable {t : StrTable JVal}

theorem backs_placed : ∀ m : Marked, Backs t (placed t m) m
  | [] => trivial
  | (_, _) :: m => ⟨rfl, fun _ h => h, backs_placed m⟩

theorem backs_none (o : Option Origin) : ∀ s : Str, Backs t (s.map fun c => (c, none)) (uniform o s)
  | [] => trivial
  | _ :: s => ⟨rfl, fun _ h => (by cases h), backs_none o s⟩

theorem backs_some {p : Option Place} {o : Option Origin} (h : ∀ q, p = some q → o.map (place t) = some q) :
    ∀ s : Str, Backs t (s.map fun c => (c, p)) (uniform o s)
  | [] => trivial
  | _ :: s => ⟨rfl, h, backs_some h s⟩

theorem Backs.append : ∀ {a b : PlacedMarks} {m n : Marked}, Backs t a m → Backs t b n →
    Backs t (a ++ b) (m ++ n)
  | [], _, [], _, _, h => h
  | (_, _) :: _, _, (_, _) :: _, _, h, h' => ⟨h.1, h.2.1, h.2.2.append h'⟩
  | [], _, _ :: _, _, h, _ => h.elim
  | _ :: _, _, [], _, h, _ => h.elim

theorem Backs.drop : ∀ (n : Nat) {a : PlacedMarks} {m : Marked}, Backs t a m → Backs t (a.drop n) (m.drop n)
  | 0, _, _, h => h
  | _ + 1, [], [], _ => trivial
  | n + 1, (_, _) :: _, (_, _) :: _, h => h.2.2.drop n
  | _ + 1, [], _ :: _, h => h.elim
  | _ + 1, _ :: _, [], h => h.elim

theorem Backs.take : ∀ (n : Nat) {a : PlacedMarks} {m : Marked}, Backs t a m → Backs t (a.take n) (m.take n)
  | 0, _, _, _ => trivial
  | _ + 1, [], [], _ => trivial
  | n + 1, (_, _) :: _, (_, _) :: _, h => ⟨h.1, h.2.1, h.2.2.take n⟩
  | _ + 1, [], _ :: _, h => h.elim
  | _ + 1, _ :: _, [], h => h.elim

theorem Backs.fst : ∀ {a : PlacedMarks} {m : Marked}, Backs t a m → a.map Prod.fst = m.map Prod.fst
  | [], [], _ => rfl
  | (_, _) :: _, (_, _) :: _, h => by rw [List.map_cons, List.map_cons, h.2.2.fst, h.1]
  | [], _ :: _, h => h.elim
  | _ :: _, [], h => h.elim

theorem Backs.get : ∀ {a : PlacedMarks} {m : Marked}, Backs t a m → ∀ {j : Nat} {c : Char} {p : Place},
    a[j]? = some (c, some p) → ∃ o, m[j]? = some (c, some o) ∧ place t o = p
  | [], [], _, _, _, _, e => by cases e
  | (_, _) :: _, (_, x) :: _, h, 0, c, p, e => by
    simp only [List.getElem?_cons_zero, Option.some.injEq, Prod.mk.injEq] at e
    have := h.2.1 p e.2
    cases x with
    | none => cases this
    | some o =>
      simp only [Option.map_some, Option.some.injEq] at this
      exact ⟨o, by simp [← h.1, e.1], this⟩
  | (_, _) :: _, (_, _) :: _, h, j + 1, c, o, e => by
    simp only [List.getElem?_cons_succ] at e ⊢
    exact h.2.2.get e
  | [], _ :: _, h, _, _, _, _ => h.elim
  | _ :: _, [], h, _, _, _, _ => h.elim

theorem Backs.prefixed {pre : Str} {s : Bool} {a b : Marked} (h : Prefixed pre s a b) :
    ∀ {k : PlacedMarks}, Backs t k a → ∃ k', PrefixedP pre s k k' ∧ Backs t k' b := by
  induction h with
  | done s =>
    intro k hk
    cases k with
    | nil => exact ⟨[], .done s, trivial⟩
    | cons _ _ => exact hk.elim
  | keep c o _ ih =>
    intro k hk
    cases k with
    | nil => exact hk.elim
    | cons x k =>
      obtain ⟨d, y⟩ := x
      obtain ⟨h1, h2, h3⟩ := hk
      subst h1
      obtain ⟨k', h4, h5⟩ := ih h3
      exact ⟨(d, y) :: k', .keep d y h4, rfl, h2, h5⟩
  | insert o _ ih =>
    intro k hk
    obtain ⟨k', h4, h5⟩ := ih hk
    exact ⟨_, .insert (o.map (place t)) h4, (backs_some (fun q h => h) pre).append h5⟩

theorem Backs.head {k : PlacedMarks} {m : Marked} (h : Backs t k m) :
    ∀ q, k.head?.bind Prod.snd = some q → (firstOrigin m).map (place t) = some q := by
  intro q hq
  match k, m, h with
  | [], [], _ => cases hq
  | (_, _) :: _, (_, _) :: _, h => exact h.2.1 q hq

theorem Backs.indentRest (pre : Str) : ∀ {k : PlacedMarks} {m : Marked}, Backs t k m →
    Backs t (indentRestP pre k) (indentRestM pre m)
  | [], [], _ => trivial
  | (c, o) :: k, (d, x) :: m, h => by
    obtain ⟨rfl, h2, h3⟩ := h
    rw [indentRestP, indentRestM]
    refine ⟨rfl, h2, Backs.append ?_ (Backs.indentRest pre h3)⟩
    have hne : k ≠ [] ↔ m ≠ [] := by
      cases k <;> cases m <;> simp_all [Backs]
    by_cases hc : c = '\n' ∧ k ≠ []
    · rw [if_pos hc, if_pos ⟨hc.1, hne.1 hc.2⟩]
      exact backs_some h3.head pre
    · rw [if_neg hc, if_neg fun h => hc ⟨h.1, hne.2 h.2⟩]
      trivial
  | [], _ :: _, h => h.elim
  | _ :: _, [], h => h.elim

theorem Backs.indent (pre : Str) {k : PlacedMarks} {m : Marked} (h : Backs t k m) :
    Backs t (indentP pre k) (indentM pre m) := by
  have hne : k = [] ↔ m = [] := by
    cases k <;> cases m <;> simp_all [Backs]
  rw [indentP, indentM]
  by_cases hk : k = []
  · rw [if_pos hk, if_pos (hne.1 hk)]; trivial
  · rw [if_neg hk, if_neg fun h => hk (hne.2 h)]
    exact (backs_some h.head pre).append (h.indentRest pre)

theorem Backs.applyRight : ∀ (es : List Edit) (os : List (Option Origin)) {k : PlacedMarks} {m : Marked},
    os.length = es.length → Backs t k m → Backs t (applyRightP k es) (applyRightM m (List.zipWith Edit.from es os))
  | [], [], _, _, _, h => h
  | e :: es, o :: os, k, m, hl, h => by
    rw [List.zipWith_cons_cons, applyRightP, applyRightM]
    exact ((Backs.applyRight es os (by simpa using hl) ((h.take _).take _)).append (backs_none o _)).append (h.drop _)
  | [], _ :: _, _, _, hl, _ => by simp at hl
  | _ :: _, [], _, _, hl, _ => by simp at hl

theorem Backs.flatten : ∀ {ks : List PlacedMarks} {ms : List Marked}, ks.length = ms.length →
    (∀ (j : Nat) (k : PlacedMarks) (m : Marked), ks[j]? = some k → ms[j]? = some m → Backs t k m) →
    Backs t ks.flatten ms.flatten
  | [], [], _, _ => trivial
  | k :: ks, m :: ms, hl, h => by
    rw [List.flatten_cons, List.flatten_cons]
    exact (h 0 k m rfl rfl).append (Backs.flatten (by simpa using hl)
      (fun j k m hk hm => h (j + 1) k m hk hm))
  | [], _ :: _, hl, _ => by simp at hl
  | _ :: _, [], hl, _ => by simp at hl

end

/-! ## Order -/

/-- The files are the ones the table has. -/
def Filed (t : StrTable JVal) (m : Marked) : Prop :=
  ∀ p ∈ m, ∀ o, p.2 = some o → ∃ v, Canon t (· = v) o.source

theorem ascending_of_forwards {t : StrTable JVal} {V : List JVal} (N : Numbered t V) {u : Marked}
    (hc : Filed t u) (h : Forwards V (placed t u)) : Ascending u := by
  rw [Forwards, List.pairwise_filterMap, placed, List.pairwise_map] at h
  rw [Ascending, List.pairwise_map]
  refine h.imp_of_mem ?_
  rintro ⟨c, a⟩ ⟨d, b⟩ ha hb hab
  cases a with
  | none => trivial
  | some a =>
    cases b with
    | none => trivial
    | some b =>
      have := hab (place t a) rfl (place t b) rfl
      obtain ⟨x, hx⟩ := hc _ ha a rfl
      obtain ⟨y, hy⟩ := hc _ hb b rfl
      show a.PlaceLe b
      rcases this with h | ⟨h1, h2⟩
      · left
        have h1 := N.order _ _ _ _ hx.name.2 hy.name.2 h
        have := hx.name.1
        have := hy.name.1
        omega
      · right
        exact ⟨hx.inj hy h1, h2⟩

/-! ## Leaves -/

theorem itemLeaves_source (name : Int) (l : Nat) : ∀ (items : List Str) (pos : Nat),
    ∀ x ∈ itemLeaves name l pos items, ∀ o, x.2 = some o → o.source = name
  | [], _, x, hx => by cases hx
  | i :: is, pos, x, hx => by
    intro o ho
    rw [itemLeaves] at hx
    split at hx
    · rcases List.mem_cons.1 hx with rfl | hx
      · cases ho
      · exact itemLeaves_source name l is _ x hx o ho
    · rcases List.mem_cons.1 hx with rfl | hx
      · cases ho; rfl
      · exact itemLeaves_source name l is _ x hx o ho

theorem linesLeaves_source (columns : Bool) (name : Int) : ∀ (ls : List Str) (i : Nat),
    ∀ x ∈ linesLeaves columns name i ls, ∀ o, x.2 = some o → o.source = name
  | [], _, x, hx => by cases hx
  | s :: ls, i, x, hx => by
    intro o ho
    rw [linesLeaves] at hx
    rcases List.mem_append.1 hx with hx | hx
    · rw [lineLeaves] at hx
      split at hx
      · exact itemLeaves_source name i _ _ x hx o ho
      · split at hx
        · cases hx
        · rw [List.mem_singleton.1 hx] at ho; cases ho; rfl
    · exact linesLeaves_source columns name ls _ x hx o ho

theorem marked_mem {L : List (Str × Option Origin)} {p : Char × Option Origin} (h : p ∈ marked L) :
    ∃ l ∈ L, l.2 = p.2 := by
  rw [marked] at h
  obtain ⟨l, h1, h2⟩ := List.mem_flatMap.1 h
  obtain ⟨c, -, rfl⟩ := List.mem_map.1 h2
  exact ⟨l, h1, rfl⟩

theorem filed_lines {t : StrTable JVal} {i : Int} {v : JVal} (h : Canon t (· = v) i) {columns : Bool}
    {ls : List Str} {k : Nat} : Filed t (marked (linesLeaves columns i k ls)) := by
  intro p hp o ho
  obtain ⟨l, hl, e⟩ := marked_mem hp
  rw [linesLeaves_source columns i ls k l hl o (by rw [e]; exact ho)]
  exact ⟨v, h⟩

theorem filed_attributes {t : StrTable JVal} {qs : List Point} {m : Marked} (ha : Attributes qs m)
    (h : ∀ l c o, lookup qs l c = some o → ∃ v, Canon t (· = v) o.source) : Filed t m := by
  intro p hp o ho
  obtain ⟨k, hk⟩ := List.getElem?_of_mem hp
  obtain ⟨c, x⟩ := p
  cases ho
  exact h _ _ _ (ha k c _ hk)

/-- What wraps no other object: where its characters come from. -/
theorem leaf_filed {w : World} {A : AHeap} {st : List JThing} {made : List JOp} {mod : Bool} (I : w.Inv A st)
    (L : w.Labels made) (hr : ∀ op ∈ made, Spec.JOp.Exact op) (hm : ∀ op ∈ made, Spec.JOp.makes op = true)
    {src' : Src} {t : Tree} (u : Unfolds A src' t) (hs : t.IsSingle) {src : JSrc}
    (e : tr (w.objs.map JObj.ptr) src = some src') {n : SmNode} (hn : Tree.itemNode true mod t = .ok n) :
    (∃ j v x, src = .obj j ∧ st[j]? = some (.leaf v x)) ∧ Filed w.strs n.marks := by
  have leafCase : ∀ (i : Nat) (a : AObj), A[i]? = some a → tr (w.objs.map JObj.ptr) src = some (.ref i) →
      ∃ j op c y k, src = .obj j ∧ made[j]? = some op ∧ Spec.JOp.Exact op ∧ Spec.JOp.makes op = true ∧
        objOf w.log i c = some a ∧ Label w.strs (some c) op ∧ st[j]? = some y ∧
        SimThing A (w.objs.map JObj.ptr) i k y := by
    intro i a hA e
    cases src with
    | str s => cases e
    | obj j =>
      obtain ⟨o, ho, rfl⟩ := tr_obj_inv e
      obtain ⟨op, h1, h2, h3⟩ := L.get ho
      obtain ⟨y, hy, sim⟩ := I.sim.get' ho
      have D := stepAll_described I.log o.ptr
      rw [hA] at D
      cases hc : (created w.log)[o.ptr]? with
      | none => rw [hc] at D; cases D
      | some c =>
        rw [hc] at D h3
        exact ⟨j, op, c, y, _, rfl, h1, hr op h2, hm op h2, D.symm, h3, hy, sim⟩
  have isLeaf : ∀ {i j : Nat} {a : AObj} {y : JThing} {k : JKind}, A[i]? = some a → a.leafText ≠ none → src = .obj j →
      st[j]? = some y → SimThing A (w.objs.map JObj.ptr) i k y → ∃ j v x, src = .obj j ∧ st[j]? = some (.leaf v x) := by
    intro i j a y k hA ha hj hy sim
    cases sim with
    | leaf hk hA' ha' => exact ⟨_, _, _, hj, hy⟩
    | prefixed hA' _ => rw [hA] at hA'; cases hA'; exact absurd rfl ha
    | replaced hA' _ => rw [hA] at hA'; cases hA'; exact absurd rfl ha
    | joined hA' _ => rw [hA] at hA'; cases hA'; exact absurd rfl ha
  cases u with
  | str s => exact hs.elim
  | raw hA =>
    obtain ⟨j, op, c, y, k, h0, h1, h2, h3, h4, h5, h6, h7⟩ := leafCase _ _ hA e
    refine ⟨isLeaf hA (by simp [AObj.leafText]) h0 h6 h7, ?_⟩
    cases hn
    intro p hp o ho
    obtain ⟨l, hl, e⟩ := marked_mem hp
    rw [rawNode_leaves] at hl
    split at hl
    · cases hl
    · rw [List.mem_singleton.1 hl, ho] at e; cases e
  | original hA =>
    obtain ⟨j, op, c, y, k, h0, h1, h2, h3, h4, h5, h6, h7⟩ := leafCase _ _ hA e
    refine ⟨isLeaf hA (by simp [AObj.leafText]) h0 h6 h7, ?_⟩
    cases c <;> simp [objOf] at h4
    obtain ⟨rfl, rfl, rfl⟩ := h4
    cases op with
    | newRaw v => cases h5
    | newOriginal v n =>
      obtain ⟨_, _, h5, h8, -⟩ := h5; cases h5
      cases hn
      rw [SmNode.marks, originalNode_leaves]
      exact filed_lines h8
    | newL2l v n o => obtain ⟨_, _, h5, _⟩ := h5; cases h5
    | newSms v n map orig inner => obtain ⟨_, _, _, _, _, h5, _⟩ := h5; cases h5
    | newPrefix p x => obtain ⟨_, h5⟩ := h5; cases h5
    | newReplace x => obtain ⟨_, h5⟩ := h5; cases h5
    | newConcat x => cases h5
    | _ => cases h3
  | l2l hA =>
    obtain ⟨j, op, c, y, k, h0, h1, h2, h3, h4, h5, h6, h7⟩ := leafCase _ _ hA e
    refine ⟨isLeaf hA (by simp [AObj.leafText]) h0 h6 h7, ?_⟩
    cases c <;> simp [objOf] at h4
    obtain ⟨rfl, rfl, rfl⟩ := h4
    cases op with
    | newRaw v => cases h5
    | newOriginal v n => obtain ⟨_, _, h5, _⟩ := h5; cases h5
    | newL2l v n o =>
      obtain ⟨_, _, h5, h8, -⟩ := h5; cases h5
      cases hn
      rw [SmNode.marks, l2lNode_leaves]
      exact filed_lines h8
    | newSms v n map orig inner => obtain ⟨_, _, _, _, _, h5, _⟩ := h5; cases h5
    | newPrefix p x => obtain ⟨_, h5⟩ := h5; cases h5
    | newReplace x => obtain ⟨_, h5⟩ := h5; cases h5
    | newConcat x => cases h5
    | _ => cases h3
  | sms hA =>
    obtain ⟨j, op, c, y, k, h0, h1, h2, h3, h4, h5, h6, h7⟩ := leafCase _ _ hA e
    refine ⟨isLeaf hA (by simp [AObj.leafText]) h0 h6 h7, ?_⟩
    cases c <;> simp [objOf] at h4
    subst h4
    cases op with
    | newRaw v => cases h5
    | newOriginal v n => obtain ⟨_, _, h5, _⟩ := h5; cases h5
    | newL2l v n o => obtain ⟨_, _, h5, _⟩ := h5; cases h5
    | newSms v f map orig inner =>
      obtain ⟨vi, ni, hd, o', inn, h5, h8, h9, h10, h11, -⟩ := h5
      cases h5
      obtain ⟨⟨ss, cs, ns, mp, rfl, hw⟩, hin⟩ := h2
      obtain ⟨ps, hp, -⟩ := id hw
      obtain ⟨S, N, hS, hN, hmeans⟩ := (h9 ss cs ns mp rfl).means hp hw
      obtain ⟨s', hq⟩ := sms_item hn
      cases inner with
      | none =>
        cases h10 rfl
        exact filed_attributes (Sms.node_means hmeans hq).2
          fun l c o ho => (byIds_told hS hN hp l c).2 o ho
      | some im =>
        obtain ⟨ss', cs', ns', mp', rfl, hw'⟩ := hin im rfl
        obtain ⟨ih, rfl, hh'⟩ := h11 ss' cs' ns' mp' rfl
        obtain ⟨ps', hp', -⟩ := id hw'
        obtain ⟨S', N', hS', hN', hmeans'⟩ := hh'.means hp' hw'
        refine filed_attributes (Sms.node_means_inner hmeans hmeans' hq).2
          fun l c o ho => ?_
        rw [lookup_compose] at ho
        obtain ⟨x, hx, rfl⟩ := Option.map_eq_some_iff.1 ho
        have hx' := (byIds_told hS hN hp l c).2 x hx
        unfold compose
        split
        · cases hl : lookup (byIds S' N' ps') x.line x.col with
          | none => exact hx'
          | some q => exact (byIds_told hS' hN' hp' _ _).2 q hl
        · exact hx'
    | newPrefix p x => obtain ⟨_, h5⟩ := h5; cases h5
    | newReplace x => obtain ⟨_, h5⟩ := h5; cases h5
    | newConcat x => cases h5
    | _ => cases h3
  | prefixed => exact hs.elim
  | replace => exact hs.elim
  | concat => exact hs.elim

/-! ## Objects -/

theorem prefixedP_indentRest (pre : Str) : ∀ (k : PlacedMarks) (s : Bool), PrefixedP pre s k (indentRestP pre k)
  | [], s => .done s
  | (c, o) :: k, s => by
    rw [indentRestP]
    refine .keep c o ?_
    by_cases h : c = '\n' ∧ k ≠ []
    · rw [if_pos h, h.1]
      exact .insert _ (prefixedP_indentRest pre k false)
    · rw [if_neg h]
      exact prefixedP_indentRest pre k _

theorem prefixedP_indent (pre : Str) (k : PlacedMarks) : PrefixedP pre true k (indentP pre k) := by
  rw [indentP]
  split
  · rename_i h; rw [h]; exact .done true
  · exact .insert _ (prefixedP_indentRest pre k false)

theorem choose_list {α β : Type} : ∀ (xs : List α) {P : Nat → α → β → Prop},
    (∀ k x, xs[k]? = some x → ∃ b, P k x b) → ∃ bs : List β, bs.length = xs.length ∧
      ∀ k x b, xs[k]? = some x → bs[k]? = some b → P k x b
  | [], _, _ => ⟨[], rfl, fun k x b h => by simp at h⟩
  | x :: xs, P, h => by
    obtain ⟨b, hb⟩ := h 0 x rfl
    obtain ⟨bs, h1, h2⟩ := choose_list xs (P := fun k => P (k + 1)) fun k y hy => h (k + 1) y (by simpa using hy)
    refine ⟨b :: bs, by simp [h1], fun k y c hy hc => ?_⟩
    cases k with
    | zero => cases hy; cases hc; exact hb
    | succ k => exact h2 k y c (by simpa using hy) (by simpa using hc)

theorem Spec.JUnedited.unique {st : List JThing} {made : List JOp} (T : Together made st) {src : JSrc}
    {a b : PlacedMarks} (ha : JUnedited st made src a) : JUnedited st made src b → b = a := by
  induction ha generalizing b with
  | str s => intro hb; cases hb; rfl
  | leaf h1 h2 =>
    intro hb
    cases hb with
    | leaf g1 g2 => exact JPlaces.unique T h2 (.leaf h1) g2
    | prefixed g1 => rw [h1] at g1; cases g1
    | replaced g1 => rw [h1] at g1; cases g1
    | joined g1 => rw [h1] at g1; cases g1
  | prefixed h1 h2 ih =>
    intro hb
    cases hb with
    | leaf g1 => rw [h1] at g1; cases g1
    | prefixed g1 g2 => rw [h1] at g1; cases g1; exact ih g2
    | replaced g1 => rw [h1] at g1; cases g1
    | joined g1 => rw [h1] at g1; cases g1
  | replaced h1 h2 ih =>
    intro hb
    cases hb with
    | leaf g1 => rw [h1] at g1; cases g1
    | prefixed g1 => rw [h1] at g1; cases g1
    | replaced g1 g2 => rw [h1] at g1; cases g1; exact ih g2
    | joined g1 => rw [h1] at g1; cases g1
  | @joined j its ms h1 h2 h3 ih =>
    intro hb
    cases hb with
    | leaf g1 => rw [h1] at g1; cases g1
    | prefixed g1 => rw [h1] at g1; cases g1
    | replaced g1 => rw [h1] at g1; cases g1
    | @joined _ its' ms' g1 g2 g3 =>
      rw [h1] at g1; cases g1
      congr 1
      apply List.ext_getElem?
      intro k
      by_cases hlt : k < its.length
      · have e1 : ms[k]? = some (ms[k]'(by omega)) := List.getElem?_eq_getElem (by omega)
        have e2 : ms'[k]? = some (ms'[k]'(by omega)) := List.getElem?_eq_getElem (by omega)
        have e3 : its[k]? = some its[k] := List.getElem?_eq_getElem hlt
        rw [e1, e2, ih k _ _ e3 e1 (g3 k _ _ e3 e2)]
      · rw [List.getElem?_eq_none (by omega), List.getElem?_eq_none (by omega)]

theorem plain_fresh {w : World} {A : AHeap} {st : List JThing} {made : List JOp} {mod : Bool} (I : w.Inv A st)
    (L : w.Labels made) {src' : Src} {t : Tree} (u : Unfolds A src' t) {src : JSrc}
    (e : tr (w.objs.map JObj.ptr) src = some src') {n : SmNode} (hn : Tree.itemNode true mod t = .ok n)
    (hp : Plain made src) : Fresh n.leaves := by
  rcases hp with ⟨s, rfl, hs⟩ | ⟨j, v, rfl, h1, hv⟩
  · cases e
    cases u
    cases hn
    exact ⟨s, [], by simp [SmNode.leaves], hs⟩
  · have key : ∃ i, src' = .ref i := by
      simp only [tr] at e
      cases hp : (w.objs.map JObj.ptr)[j]? with
      | none => rw [hp] at e; cases e
      | some p => rw [hp] at e; cases e; exact ⟨_, rfl⟩
    obtain ⟨i, rfl⟩ := key
    obtain ⟨o, ho, rfl⟩ := tr_obj_inv e
    obtain ⟨op, h1', h2, h3⟩ := L.get ho
    rw [h1] at h1'; cases h1'
    have D := stepAll_described I.log o.ptr
    rw [h3] at D
    have D : A[o.ptr]? = some (.raw v) := D
    cases u with
    | raw hA =>
      rw [hA] at D; cases D
      cases hn
      rw [rawNode_leaves, if_neg (by simpa using hv)]
      exact ⟨v, [], rfl, hv⟩
    | original hA => rw [hA] at D; cases D
    | l2l hA => rw [hA] at D; cases D
    | sms hA => rw [hA] at D; cases D
    | prefixed hA => rw [hA] at D; cases D
    | replace hA => rw [hA] at D; cases D
    | concat hA => rw [hA] at D; cases D

/-- What is said of an object is so of its node, and no left-over mapping overrules it. -/
theorem carries_unfolds {w : World} {A : AHeap} {st : List JThing} {made : List JOp} {mod : Bool} {V : List JVal}
    (I : w.Inv A st) (L : w.Labels made) (T : Together made st) (N : Numbered w.strs V) (hah : AllAhead st)
    (hr : ∀ op ∈ made, Spec.JOp.Exact op) (hm : ∀ op ∈ made, Spec.JOp.makes op = true)
    {src' : Src} {t : Tree} (u : Unfolds A src' t) :
    ∀ src, tr (w.objs.map JObj.ptr) src = some src' → ∀ n, Tree.itemNode true mod t = .ok n →
      (∃ k, JCarries st made src k ∧ Backs w.strs k n.marks) ∧
      (∃ v, JUnedited st made src (placed w.strs v) ∧ Tame v n.leaves ∧ Filed w.strs v) ∧
      (Orderly st made V src → Sane [] n.leaves) := by
  have fwd : ∀ {src : JSrc} {n : SmNode} {v : Marked} {x : PlacedMarks}, JUnedited st made src (placed w.strs v) →
      Tame v n.leaves → Filed w.strs v → JUnedited st made src x → Forwards V x → Sane [] n.leaves := by
    intro src n v x h1 h2 h3 h4 h5
    rw [h1.unique T h4] at h5
    have := h2.keeps (ascending_of_forwards N h3 h5)
    rw [origins, List.pairwise_map] at this
    exact sane_of_pairwise (by simp) this
  have single : ∀ {src' : Src} {t : Tree}, Unfolds A src' t → t.IsSingle → ∀ src,
      tr (w.objs.map JObj.ptr) src = some src' → ∀ n, Tree.itemNode true mod t = .ok n →
      (∃ k, JCarries st made src k ∧ Backs w.strs k n.marks) ∧
      (∃ v, JUnedited st made src (placed w.strs v) ∧ Tame v n.leaves ∧ Filed w.strs v) ∧
      (Orderly st made V src → Sane [] n.leaves) := by
    intro src' t u ht src e n hn
    obtain ⟨⟨j, v, x, rfl, hj⟩, hfl⟩ := leaf_filed I L hr hm u ht e hn
    obtain ⟨hp, -, hfull⟩ := JPlaces.of_unfolds I L hr hm u _ e (.leaf hj) n hn
    have hfull := hfull (.leaf hj)
    have hsub := full_sublist n.leaves hfull
    refine ⟨⟨_, .leaf hj hp, backs_placed _⟩, ⟨_, .leaf hj hp, ⟨?_, fun ha => ha.sublist hsub⟩, hfl⟩, fun _ => ?_⟩
    · exact fun o ho => ⟨o, hsub.subset ho, .inl rfl⟩
    · exact sane_of_quiet (.of_full hfull) (by simp)
  induction u with
  | str s =>
    intro src e n hn
    cases hn
    cases src with
    | str s' =>
      cases e
      have hmk : (SmNode.str s).marks = uniform none s := by simp [SmNode.marks, SmNode.leaves, marked, uniform]
      have hpl : placed w.strs (uniform none s) = s.map fun c => (c, none) := by rw [placed_uniform]; rfl
      refine ⟨⟨_, .str s, ?_⟩, ⟨uniform none s, ?_, ⟨?_, ?_⟩, ?_⟩, fun _ => ?_⟩
      · rw [hmk]; exact backs_none _ s
      · rw [hpl]; exact .str s
      · intro o ho; simp [origins, SmNode.leaves] at ho
      · intro _; simp [origins, SmNode.leaves]
      · intro p hp o ho
        obtain ⟨c, -, rfl⟩ := List.mem_map.1 hp
        cases ho
      · rw [SmNode.leaves]
        exact ⟨by simp, trivial⟩
    | obj j =>
      simp only [tr] at e
      cases hp : (w.objs.map JObj.ptr)[j]? with
      | none => rw [hp] at e; cases e
      | some p => rw [hp] at e; cases e
  | raw hA => exact single (.raw hA) trivial
  | original hA => exact single (.original hA) trivial
  | l2l hA => exact single (.l2l hA) trivial
  | sms hA => exact single (.sms hA) trivial
  | @prefixed i p c t hA hc ih =>
    intro src e n hn
    have up : Unfolds A (.ref i) (.prefixed p t) := .prefixed hA hc
    have hn0 := hn
    cases src with
    | str s => cases e
    | obj j =>
      obtain ⟨o, ho, rfl⟩ := tr_obj_inv e
      obtain ⟨y, hy, sim⟩ := I.sim.get' ho
      generalize o.kind = k at sim
      cases sim with
      | leaf hk hA' ha' => rw [hA] at hA'; cases hA'; cases ha'
      | @prefixed _ c0 _ hA' hc' =>
        rw [hA] at hA'; cases hA'
        change Tree.node true mod (.prefixed _ t) = .ok n at hn
        rw [Tree.node] at hn
        cases hl : t.node true mod with
        | error z => rw [hl] at hn; cases hn
        | ok m =>
          rw [hl] at hn; cases hn
          have hit : Tree.itemNode true mod t = .ok m := by
            cases t <;> first | exact hl | cases hl
          have hnode := Tree.node_isNode _ _ t m hl
          obtain ⟨⟨k, k1, k2⟩, ⟨v, v1, v2, v3⟩, k3⟩ := ih _ hc' _ hit
          have v2' := v2.prefixed p hnode
          refine ⟨?_, ⟨v, .prefixed hy v1, v2', v3⟩, fun ho => ?_⟩
          · by_cases hu : Unreplaced st false c0
            · have hf := (JPlaces.of_unfolds I L hr hm hc _ hc' hu.mono m hit).2.2 hu
              have h5 : Backs w.strs (indentP p k) (prefixNode p m).marks := by
                rw [C37_exact p m hnode hf]; exact k2.indent p
              obtain ⟨k', h6, h7⟩ := k2.prefixed (C37_kept p m hnode)
              refine ⟨_, .prefixed hy k1 ?_ (fun _ => rfl), h5⟩
              exact prefixedP_indent p k
            · obtain ⟨k', h6, h7⟩ := k2.prefixed (C37_kept p m hnode)
              exact ⟨k', .prefixed hy k1 h6 (fun h => absurd h hu), h7⟩
          · cases ho with
            | forwards h1 h2 => exact fwd (.prefixed hy v1) v2' v3 h1 h2
            | unreplaced h =>
              exact sane_of_quiet (JPlaces.of_unfolds I L hr hm up _ e h _ hn0).2.1 (by simp)
            | prefixed h h' =>
              rw [hy] at h; cases h
              rw [(prefixNode_leaves p hnode).2]
              exact (k3 h').prefixed p
            | joined h => rw [hy] at h; cases h
      | replaced hA' _ => rw [hA] at hA'; cases hA'
      | joined hA' _ => rw [hA] at hA'; cases hA'
  | @replace i c cs t hA hc ih =>
    intro src e n hn
    have up : Unfolds A (.ref i) (.replace t cs) := .replace hA hc
    have hn0 := hn
    cases src with
    | str s => cases e
    | obj j =>
      obtain ⟨o, ho, rfl⟩ := tr_obj_inv e
      obtain ⟨y, hy, sim⟩ := I.sim.get' ho
      generalize o.kind = k at sim
      cases sim with
      | leaf hk hA' ha' => rw [hA] at hA'; cases hA'; cases ha'
      | prefixed hA' hc' => rw [hA] at hA'; cases hA'
      | @replaced c0 _ rs hA' hc' =>
        rw [hA] at hA'; cases hA'
        obtain ⟨es, he⟩ := rightToLeft_exists rs
        change Tree.node true mod (.replace t _) = .ok n at hn
        rw [Tree.node] at hn
        cases hl : t.node true mod with
        | error z => rw [hl] at hn; cases hn
        | ok m =>
          rw [hl] at hn
          have hit : Tree.itemNode true mod t = .ok m := by
            cases t <;> first | exact hl | cases hl
          change replaceNode m (sortedCalls (rs.map JRequest.call)) = .ok n at hn
          obtain ⟨n', g1, -, g2⟩ := replaceNode_leaves (Tree.node_isNode _ _ t m hl) (sortedCalls (rs.map JRequest.call))
          rw [hn] at g1; cases g1
          obtain ⟨⟨k, k1, k2⟩, ⟨v, v1, v2, v3⟩, k3⟩ := ih _ hc' _ hit
          have hle : ∀ r ∈ sortedCalls (rs.map JRequest.call), r.start ≤ r.stop := by
            intro r hr
            have := List.mem_map_of_mem (f := Repl.edit) hr
            rw [he.sorted] at this
            obtain ⟨x, hx, hxe⟩ := List.mem_map.1 this
            have hx2 := List.mem_zipIdx' (he.perm.mem_iff.1 hx)
            have := hah j c0 rs hy x.1 (by rw [hx2.2]; exact List.getElem_mem _)
            have e1 : r.start = x.1.first.floor := congrArg Edit.start hxe.symm
            have e2 : r.stop = x.1.last.floor + 1 := congrArg Edit.stop hxe.symm
            omega
          have hp := leafLoop_places (sortedCalls (rs.map JRequest.call)) m.leaves [] hle
          have v2' : Tame v n.leaves := by
            rw [g2]
            exact ⟨hp.1.trans v2.places, fun ha => by simpa using hp.2 (by simpa using v2.keeps ha)⟩
          refine ⟨?_, ⟨v, .replaced hy v1, v2', v3⟩, fun ho => ?_⟩
          · refine ⟨_, .replaced hy he k1, ?_⟩
            obtain ⟨os, hlen, hmk⟩ := leafLoop_marks (sortedCalls (rs.map JRequest.call)) m.leaves
            rw [SmNode.marks, g2, hmk, markedEdits_eq, he.sorted]
            refine k2.applyRight _ os ?_
            rw [hlen, ← he.sorted, List.length_map]
          · cases ho with
            | forwards h1 h2 => exact fwd (.replaced hy v1) v2' v3 h1 h2
            | unreplaced h =>
              exact sane_of_quiet (JPlaces.of_unfolds I L hr hm up _ e h _ hn0).2.1 (by simp)
            | prefixed h h' => rw [hy] at h; cases h
            | joined h => rw [hy] at h; cases h
      | joined hA' _ => rw [hA] at hA'; cases hA'
  | @concat i is ts hA hl hk ih =>
    intro src e n hn
    have up : Unfolds A (.ref i) (.concat ts) := .concat hA hl hk
    have hn0 := hn
    cases src with
    | str s => cases e
    | obj j =>
      obtain ⟨o, ho, rfl⟩ := tr_obj_inv e
      obtain ⟨y, hy, sim⟩ := I.sim.get' ho
      generalize o.kind = k at sim
      cases sim with
      | leaf hk hA' ha' => rw [hA] at hA'; cases hA'; cases ha'
      | prefixed hA' hc' => rw [hA] at hA'; cases hA'
      | replaced hA' _ => rw [hA] at hA'; cases hA'
      | @joined cs its is' hA' hi =>
        rw [hA] at hA'; cases hA'
        have hlen : its.length = is.length := by simpa using congrArg List.length hi
        change Tree.node true mod (.concat ts) = .ok n at hn
        rw [Tree.node, Tree.nodes_eq] at hn
        cases hxs : allM (Tree.itemNode true mod) ts with
        | error z => rw [hxs] at hn; cases hn
        | ok xs =>
          rw [hxs] at hn; cases hn
          obtain ⟨q1, q2⟩ := allM_each hxs
          have each : ∀ (k : Nat) (x : SmNode), xs[k]? = some x → ∃ i, its[k]? = some i ∧
              ∃ i' t', tr (w.objs.map JObj.ptr) i = some i' ∧ Unfolds A i' t' ∧ Tree.itemNode true mod t' = .ok x ∧
              (∃ k, JCarries st made i k ∧ Backs w.strs k x.marks) ∧
              (∃ v, JUnedited st made i (placed w.strs v) ∧ Tame v x.leaves ∧ Filed w.strs v) ∧
              (Orderly st made V i → Sane [] x.leaves) := by
            intro k x hx
            have hk' : k < xs.length := (List.getElem?_eq_some_iff.1 hx).1
            have e2 : is[k]? = some (is[k]'(by omega)) := List.getElem?_eq_getElem (by omega)
            have e3 : ts[k]? = some (ts[k]'(by omega)) := List.getElem?_eq_getElem (by omega)
            have e1 : its[k]? = some (its[k]'(by omega)) := List.getElem?_eq_getElem (by omega)
            have e4 : tr (w.objs.map JObj.ptr) (its[k]'(by omega)) = some (is[k]'(by omega)) := by
              have := congrArg (fun l => l[k]?) hi
              simpa [List.getElem?_map, e1, e2] using this
            exact ⟨_, e1, _, _, e4, hk k _ _ e2 e3, q2 k _ _ e3 hx, ih k _ _ e2 e3 _ e4 _ (q2 k _ _ e3 hx)⟩
          obtain ⟨ks, c1, c2⟩ := choose_list xs (P := fun k x m => ∃ i, its[k]? = some i ∧ JCarries st made i m ∧
            Backs w.strs m x.marks) fun k x hx => by
              obtain ⟨i, e1, _, _, _, _, _, ⟨m, h1, h2⟩, _⟩ := each k x hx
              exact ⟨m, i, e1, h1, h2⟩
          obtain ⟨vs, d1, d2⟩ := choose_list xs (P := fun k x m => ∃ i, its[k]? = some i ∧
            JUnedited st made i (placed w.strs m) ∧ Tame m x.leaves ∧ Filed w.strs m) fun k x hx => by
              obtain ⟨i, e1, _, _, _, _, _, _, ⟨v, h1, h2⟩, _⟩ := each k x hx
              exact ⟨v, i, e1, h1, h2⟩
          have atk : ∀ {k : Nat} {i : JSrc}, its[k]? = some i → ∃ x, xs[k]? = some x := fun {k i} h => by
            have := (List.getElem?_eq_some_iff.1 h).1
            exact ⟨_, List.getElem?_eq_getElem (show k < xs.length by omega)⟩
          have v1 : JUnedited st made (.obj j) (placed w.strs vs.flatten) := by
            rw [show placed w.strs vs.flatten = (vs.map (placed w.strs)).flatten from by
              rw [placed, List.map_flatten]; rfl]
            refine .joined hy (by simp; omega) fun k i m h1 h2 => ?_
            obtain ⟨x, hx⟩ := atk h1
            rw [List.getElem?_map] at h2
            obtain ⟨v, hv, rfl⟩ := Option.map_eq_some_iff.1 h2
            obtain ⟨i', h3, h4, -⟩ := d2 k x v hx hv
            rw [h1] at h3; cases h3; exact h4
          have hleaves : (SmNode.mkVec none none none xs).leaves = (xs.map SmNode.leaves).flatten := by
            rw [mkVec_leaves, List.flatMap_def]
          have v2 : Tame vs.flatten (SmNode.mkVec none none none xs).leaves := by
            rw [hleaves]
            refine tame_concat (by simp; omega) fun k m Lv h1 h2 => ?_
            rw [List.getElem?_map] at h2
            obtain ⟨x, hx, rfl⟩ := Option.map_eq_some_iff.1 h2
            obtain ⟨_, _, _, h5, _⟩ := d2 k x m hx h1
            exact h5
          have v3 : Filed w.strs vs.flatten := by
            intro p hp
            obtain ⟨v, hv, hp⟩ := List.mem_flatten.1 hp
            obtain ⟨k, hk'⟩ := List.getElem?_of_mem hv
            have hlt := (List.getElem?_eq_some_iff.1 hk').1
            obtain ⟨_, _, _, _, h6⟩ := d2 k _ v (List.getElem?_eq_getElem (show k < xs.length by omega)) hk'
            exact h6 p hp
          refine ⟨⟨ks.flatten, .joined hy (by omega) fun k i m h1 h2 => ?_, ?_⟩, ⟨_, v1, v2, v3⟩, fun ho => ?_⟩
          · obtain ⟨x, hx⟩ := atk h1
            obtain ⟨i', h3, h4, -⟩ := c2 k x m hx h2
            rw [h1] at h3; cases h3; exact h4
          · rw [mkVec_marks]
            refine Backs.flatten (by simp; omega) fun k m mk h1 h2 => ?_
            rw [List.getElem?_map] at h2
            obtain ⟨x, hx, rfl⟩ := Option.map_eq_some_iff.1 h2
            obtain ⟨_, _, _, h5⟩ := c2 k x m hx h1
            exact h5
          · cases ho with
            | forwards h1 h2 => exact fwd v1 v2 v3 h1 h2
            | unreplaced h =>
              exact sane_of_quiet (JPlaces.of_unfolds I L hr hm up _ e h _ hn0).2.1 (by simp)
            | prefixed h h' => rw [hy] at h; cases h
            | joined h h2 h3 =>
              rw [hy] at h; cases h
              rw [hleaves]
              refine sane_flatten ?_ ?_ (.inl (by simp))
              · intro Lv hLv
                obtain ⟨x, hx, rfl⟩ := List.mem_map.1 hLv
                obtain ⟨k, hk'⟩ := List.getElem?_of_mem hx
                obtain ⟨i, e1, _, _, _, _, _, _, _, h6⟩ := each k x hk'
                exact h6 (h2 i (List.mem_of_getElem? e1))
              · intro k Lv hLv
                rw [List.getElem?_map] at hLv
                obtain ⟨x, hx, rfl⟩ := Option.map_eq_some_iff.1 hLv
                obtain ⟨i, e1, i', t', e2, e3, e4, _⟩ := each k x hx
                rcases h3 k i e1 with h | h | ⟨i2, h, hpl⟩
                · exact .inl (JPlaces.of_unfolds I L hr hm e3 _ e2 h _ e4).2.1
                · exact .inr (.inl (by rw [List.length_map]; omega))
                · obtain ⟨x2, hx2⟩ := atk h
                  obtain ⟨i3, g1, _, _, g2, g3, g4, _⟩ := each (k + 1) x2 hx2
                  rw [h] at g1; cases g1
                  exact .inr (.inr ⟨_, by rw [List.getElem?_map, hx2]; rfl, plain_fresh I L g3 g2 g4 hpl⟩)

/-! ## The claim -/

/-- The map of the pair `k` gives each character of `m` its file, line and column, a name if it has one, and no
name but that of a place of `u` with this file, line and column. -/
def KeepsNear (w : World) (k : Nat) (m u : PlacedMarks) : Prop :=
  Reads w k .source (.text (m.map Prod.fst)) ∧
  ∃ l ns s ps, Reads w k .sources (.list l) ∧ Reads w k .names (.list ns) ∧ Reads w k .mappings (.text s) ∧
    points (idTable l.length) (idTable ns.length) s = some ps ∧
    ∀ i c p, m[i]? = some (c, some p) → ∃ n : Option JVal,
      (lookup ps (posAfter ((m.take i).map Prod.fst)).1 (posAfter ((m.take i).map Prod.fst)).2).map
        (fun x => (l[x.source.toNat]?, x.line, x.col, x.name.map fun n => ns[n.toNat]?)) =
        some (some p.file, p.line, p.col, n.map some) ∧
      (p.name.isSome = true → n.isSome = true) ∧
      ∃ a : Place, some a ∈ u.map Prod.snd ∧ a.file = p.file ∧ a.line = p.line ∧ a.col = p.col ∧
        (n = none ∨ n = a.name)

theorem KeepsNear.keeps {w : World} {k : Nat} {m u : PlacedMarks} (h : KeepsNear w k m u) : KeepsPlaces w k m := by
  obtain ⟨h1, l, ns, s, ps, h2, h3, h4, h5, h6⟩ := h
  refine ⟨h1, l, ns, s, ps, h2, h3, h4, h5, fun i c p hi => ?_⟩
  obtain ⟨n, h7, -⟩ := h6 i c p hi
  have he := congrArg (Option.map fun z : Option JVal × Nat × Nat × Option (Option JVal) => (z.1, z.2.1, z.2.2.1)) h7
  rw [Option.map_map] at he
  exact he

theorem World.emit_carries_near {U : Pool} {st : List JThing} {made : List JOp} {V : List JVal} {w w1 w2 : World}
    {A : AHeap} {j k : Nat} {module_ : Bool} (I : w.Inv A st) (L : w.Labels made) (W : w.Within U) (hl : w.Lined)
    (hst : ∀ o ∈ w.log, Spec.Op.StableMap o) (N : Numbered w.strs V) (T : Together made st) (hahead : AllAhead st)
    (hr : ∀ op ∈ made, Spec.JOp.Exact op) (hmk : ∀ op ∈ made, Spec.JOp.makes op = true)
    (ho : Orderly st made V (.obj j))
    (e : (JOp.sourceAndMap j true module_).run w = .ok (.pair k, w1)) (e2 : World.Lasts k w1 w2) :
    ∃ m u, JCarries st made (.obj j) m ∧ JUnedited st made (.obj j) u ∧ KeepsNear w2 k m u := by
  simp only [JOp.run] at e
  unfold World.emit at e
  split at e
  · cases e
  rename_i o hob
  split at e
  · cases e
  simp only [if_true, Except.bind_ok_iff] at e
  obtain ⟨⟨a, w3⟩, h1, h2⟩ := e
  dsimp only at h2
  split at h2
  · rename_i n
    have hw := W.call (op := .node o.ptr true module_) trivial
    have hln := hl.call (op := .node o.ptr true module_) trivial
    rw [h1] at hw hln
    obtain ⟨g1, g2, g3, g4⟩ := hw
    obtain ⟨l1, l2, -⟩ := hln
    dsimp only at g1 g2 g3 g4 l1 l2
    obtain ⟨h', hn⟩ : ∃ h', apiNode w.heap o.ptr true module_ = .ok (n, h') := by
      simp only [World.call, Op.run] at h1
      cases hn : apiNode w.heap o.ptr true module_ with
      | error e => rw [hn] at h1; cases h1
      | ok p => rw [hn] at h1; simp only [Except.map] at h1; cases h1; exact ⟨_, rfl⟩
    obtain ⟨t, u, ht⟩ := (api_node_iff (stable_of_ops I.log hst) I.abs _ _ _ _).1 ⟨h', hn⟩
    have hit : Tree.itemNode true module_ t = .ok n := by
      cases t <;> first | exact ht | cases ht
    obtain ⟨⟨m, c1, c2⟩, ⟨v, v1, v2, -⟩, c3⟩ := carries_unfolds I L T N hahead
      hr hmk u (.obj j)
      (tr_obj hob) _ hit
    have sane := c3 ho
    cases h2
    have hin : n.In (hasDom w.strs) := SmNode.In.mono (dom_sub_has _) g2
    have grown : ∃ x, w2.strs.array = w.strs.array ++ x := by
      have := e2.array List.getElem?_concat_length
      rwa [← g3]
    obtain ⟨q, ps, q1, q2, q3, q4, q5⟩ := C09_shown n none none (SmNode.Lined.leaves l2)
    have shows := shows_of_attributes (w := w2) (k := w.maps.length) (hin.mono (hasDom_grow grown)) q1 q2 q5
      (q4.trans q3.symm) fun f => e2 _ (Tells.lasting true _ _ f) _ List.getElem?_concat_length
        (node_tells q1 f _)
    have hkept := displayed_sane n.leaves none none [] [] sane (by simp) (fun h => absurd rfl h)
      (fun _ q hq => by cases hq)
    have htext : m.map Prod.fst = (placed w2.strs (displayed none none [] n.leaves)).map Prod.fst := by
      rw [c2.fst, show (placed w2.strs (displayed none none [] n.leaves)).map Prod.fst =
        (displayed none none [] n.leaves).map Prod.fst by simp [placed, Function.comp_def], q4]
      exact SmNode.marks_text n
    refine ⟨m, _, c1, v1, ?_⟩
    obtain ⟨s1, l, ns, s, ps', s2, s3, s4, s5, s6⟩ := shows
    refine ⟨by rw [htext]; exact s1, l, ns, s, ps', s2, s3, s4, s5, ?_⟩
    intro i c p hi
    obtain ⟨x, hx, hxp⟩ := c2.get hi
    obtain ⟨y, hy, hu⟩ := hkept.get (show (marked n.leaves)[i]? = some (c, some x) from hx)
    have hsh := s6 i c (some (place w2.strs y)) (by
      rw [placed, List.getElem?_map, hy]; rfl)
    have hyo : some y ∈ origins n.leaves := by
      rcases displayed_from n.leaves none none [] _ (List.mem_of_getElem? hy) with h | h | h | h
      · cases h
      · cases h
      · exact h
      · cases h
    have hxs := hin.marks_has _ (List.mem_of_getElem? hx) x rfl
    have hfile : w2.strs.name x.source = w.strs.name x.source := congrArg Place.file (place_mono grown hxs)
    have hname : ∀ z, y.name = some z → w2.strs.name z = w.strs.name z := by
      obtain ⟨q, hq, hqy⟩ := List.mem_map.1 hyo
      have hyh : OriginHas w.strs y := hin.origins q hq y hqy
      intro z hz
      exact (StrTable.Has.mono grown (hyh.2 z hz)).2
    have h1 : y.source = x.source := congrArg (fun o => o.source) hu.1
    have h2 : y.line = x.line := congrArg (fun o => o.line) hu.1
    have h3 : y.col = x.col := congrArg (fun o => o.col) hu.1
    subst hxp
    refine ⟨y.name.map w.strs.name, ?_, ?_, ?_⟩
    · rw [List.map_take, htext, ← List.map_take]
      refine hsh.trans ?_
      simp only [Option.map_some, place]
      rw [h1, h2, h3, hfile]
      cases hn : y.name with
      | none => rfl
      | some z => simp [hname z hn]
    · intro hs
      have : y.name.isSome = true := hu.2 (by simpa [place] using hs)
      simpa using this
    · obtain ⟨a, ha, hae⟩ := v2.places y hyo
      refine ⟨place w.strs a, ?_, ?_⟩
      · obtain ⟨q, hq, hqa⟩ := List.mem_map.1 ha
        exact List.mem_map.2 ⟨_, List.mem_map.2 ⟨q, hq, rfl⟩, by simp [hqa]⟩
      · have hsame := PlacesIn.same hae
        have a1 : a.source = y.source := congrArg (fun o => o.source) hsame
        have a2 : a.line = y.line := congrArg (fun o => o.line) hsame
        have a3 : a.col = y.col := congrArg (fun o => o.col) hsame
        refine ⟨by simp [place, a1, h1], by simp [place, a2, h2], by simp [place, a3, h3], ?_⟩
        rcases hae with rfl | rfl
        · exact .inr rfl
        · exact .inl rfl
  · cases h2

theorem World.emit_carries {U : Pool} {st : List JThing} {made : List JOp} {V : List JVal} {w w1 w2 : World}
    {A : AHeap} {j k : Nat} {module_ : Bool} (I : w.Inv A st) (L : w.Labels made) (W : w.Within U) (hl : w.Lined)
    (hst : ∀ o ∈ w.log, Spec.Op.StableMap o) (N : Numbered w.strs V) (T : Together made st) (hahead : AllAhead st)
    (hr : ∀ op ∈ made, Spec.JOp.Exact op) (hmk : ∀ op ∈ made, Spec.JOp.makes op = true)
    (ho : Orderly st made V (.obj j))
    (e : (JOp.sourceAndMap j true module_).run w = .ok (.pair k, w1)) (e2 : World.Lasts k w1 w2) :
    ∃ m, JCarries st made (.obj j) m ∧ KeepsPlaces w2 k m := by
  obtain ⟨m, u, h1, -, h2⟩ := World.emit_carries_near I L W hl hst N T hahead hr hmk ho e e2
  exact ⟨m, h1, h2.keeps⟩

/-- What C65 and its claim about names follow from. -/
theorem World.run_carries_near (ops more : List JOp) (w w1 w2 : World) (j k : Nat) (module_ : Bool)
    (r : World.run ops = .ok w) (hp : ∀ op ∈ ops, op.Proper) (hf : ∀ op ∈ ops, Spec.JOp.FewLines op)
    (hr : ∀ op ∈ ops, Spec.JOp.Exact op) (hah : ∀ op ∈ ops, Spec.JOp.Ahead op)
    (ho : Orderly (jthings ops) (jmade ops) (mentions ops) (.obj j))
    (e : (JOp.sourceAndMap j true module_).run w = .ok (.pair k, w1)) (e2 : WS.World.runFrom w1 more = .ok w2)
    (hg : ∀ op ∈ more, ¬ op.gives k) (hset : ∀ a, .set k a ∉ more) :
    ∃ m u, JCarries (jthings ops) (jmade ops) (.obj j) m ∧ JUnedited (jthings ops) (jmade ops) (.obj j) u ∧
      KeepsNear w2 k m u := by
  obtain ⟨A, I⟩ := World.run_inv hp r
  have L := World.run_labels hp r
  have W := World.run_within ops
  rw [r] at W
  have W : w.Within (supplied ops) := W
  have hl := World.run_lined hf r
  obtain ⟨-, hlog⟩ := World.run_log r
  have hst : ∀ o ∈ w.log, Spec.Op.StableMap o := by
    intro o ho
    obtain ⟨op, hop, hof⟩ := hlog o ho
    cases o <;> try trivial
    obtain ⟨-, n, m, o', i, rfl, -, h1⟩ := hof
    obtain ⟨⟨ss, cs, ns, mp, rfl, -⟩, -⟩ := hr _ hop
    obtain ⟨-, d, hd, -⟩ := h1 ss cs ns mp rfl
    exact .inl (by rw [hd]; rfl)
  have N : Numbered w.strs (mentions ops) := by
    refine World.run_numbered (fun op hop => ?_) r
    have := hr op hop
    cases op <;> try trivial
    obtain ⟨⟨ss, cs, ns, mp, rfl, -⟩, h2⟩ := this
    refine ⟨⟨_, _, _, _, rfl⟩, fun i hi => ?_⟩
    obtain ⟨ss, cs, ns, mp, rfl, -⟩ := h2 i hi
    exact ⟨_, _, _, _, rfl⟩
  have T : Together (jmade ops) (jthings ops) := by
    exact together ops (made := []) (st := []) ⟨rfl, fun j op x h => by simp at h⟩
  have hahead : AllAhead (jthings ops) := allAhead ops (fun j c rs h => by simp at h) hah
  exact World.emit_carries_near I L W hl hst N T hahead (fun op h => hr op (List.mem_filter.1 h).1)
    (fun op h => (List.mem_filter.1 h).2) ho e (.of_run e2 hg hset)

/-- C65: as C63, but `ReplaceSource`s are allowed where nothing can be deleted in front of code from an
earlier place (`Orderly`); then only file, line and column are claimed (names: `C65_names_partial`), and nothing of the texts that were put in. Missing: what C63 misses, requests that end
before they begin, and files in the wrong order (false, `C65_not_general`). -/
theorem C65_partial (ops more : List JOp) (w w1 w2 : World) (j k : Nat) (module_ : Bool)
    (r : World.run ops = .ok w) (hp : ∀ op ∈ ops, op.Proper) (hf : ∀ op ∈ ops, Spec.JOp.FewLines op)
    (hr : ∀ op ∈ ops, Spec.JOp.Exact op) (hah : ∀ op ∈ ops, Spec.JOp.Ahead op)
    (ho : Orderly (jthings ops) (jmade ops) (mentions ops) (.obj j))
    (e : (JOp.sourceAndMap j true module_).run w = .ok (.pair k, w1)) (e2 : w1.runFrom more = .ok w2)
    (hg : ∀ op ∈ more, ¬ op.gives k) (hset : ∀ a, .set k a ∉ more) :
    ∃ m, JCarries (jthings ops) (jmade ops) (.obj j) m ∧ KeepsPlaces w2 k m := by
  obtain ⟨m, u, h1, -, h2⟩ := World.run_carries_near ops more w w1 w2 j k module_ r hp hf hr hah ho e e2 hg hset
  exact ⟨m, h1, h2.keeps⟩

/-! ## Objects of which exactly one thing is said -/

/-- Prefixes are put in front of objects without `ReplaceSource`s and empty strings only. -/
inductive Spec.Steady (st : List JThing) : JSrc → Prop where
  | str (s : List Char) : Steady st (.str s)
  | leaf {j : Nat} {v : List Char} {x : List (List Char)} : st[j]? = some (.leaf v x) → Steady st (.obj j)
  | prefixed {j : Nat} {p : List Char} {c : JSrc} : st[j]? = some (.prefixed p c) → Unreplaced st false c →
      Steady st (.obj j)
  | replaced {j : Nat} {c : JSrc} {rs : List JRequest} : st[j]? = some (.replaced c rs) → Steady st c →
      Steady st (.obj j)
  | joined {j : Nat} {items : List JSrc} : st[j]? = some (.joined items) → (∀ i ∈ items, Steady st i) →
      Steady st (.obj j)

theorem Spec.Unreplaced.steady {st : List JThing} {src : JSrc} (h : Unreplaced st false src) : Steady st src := by
  induction h with
  | str s _ => exact .str s
  | leaf h => exact .leaf h
  | prefixed h h' _ => exact .prefixed h h'
  | joined h _ ih => exact .joined h ih

theorem Spec.JCarries.unique {st : List JThing} {made : List JOp} (T : Together made st) {src : JSrc}
    {a b : PlacedMarks} (ha : JCarries st made src a) : Steady st src → JCarries st made src b → b = a := by
  induction ha generalizing b with
  | str s => intro _ hb; cases hb; rfl
  | leaf h1 h2 =>
    intro _ hb
    cases hb with
    | leaf g1 g2 => exact JPlaces.unique T h2 (.leaf h1) g2
    | prefixed g1 => rw [h1] at g1; cases g1
    | replaced g1 => rw [h1] at g1; cases g1
    | joined g1 => rw [h1] at g1; cases g1
  | prefixed h1 h2 h3 h4 ih =>
    intro hs hb
    cases hb with
    | leaf g1 => rw [h1] at g1; cases g1
    | prefixed g1 g2 g3 g4 =>
      rw [h1] at g1; cases g1
      cases hs with
      | leaf f => rw [h1] at f; cases f
      | prefixed f hu => rw [h1] at f; cases f; rw [h4 hu, g4 hu, ih hu.steady g2]
      | replaced f => rw [h1] at f; cases f
      | joined f => rw [h1] at f; cases f
    | replaced g1 => rw [h1] at g1; cases g1
    | joined g1 => rw [h1] at g1; cases g1
  | replaced h1 h2 h3 ih =>
    intro hs hb
    cases hb with
    | leaf g1 => rw [h1] at g1; cases g1
    | prefixed g1 => rw [h1] at g1; cases g1
    | replaced g1 g2 g3 =>
      rw [h1] at g1; cases g1
      cases hs with
      | leaf f => rw [h1] at f; cases f
      | prefixed f => rw [h1] at f; cases f
      | replaced f hu => rw [h1] at f; cases f; rw [ih hu g3, ← h2.sorted, ← g2.sorted]
      | joined f => rw [h1] at f; cases f
    | joined g1 => rw [h1] at g1; cases g1
  | @joined j its ms h1 h2 h3 ih =>
    intro hs hb
    cases hb with
    | leaf g1 => rw [h1] at g1; cases g1
    | prefixed g1 => rw [h1] at g1; cases g1
    | replaced g1 => rw [h1] at g1; cases g1
    | @joined _ its' ms' g1 g2 g3 =>
      rw [h1] at g1; cases g1
      have hs : ∀ i ∈ its, Steady st i := by
        cases hs with
        | leaf f => rw [h1] at f; cases f
        | prefixed f => rw [h1] at f; cases f
        | replaced f => rw [h1] at f; cases f
        | joined f hu => rw [h1] at f; cases f; exact hu
      congr 1
      apply List.ext_getElem?
      intro k
      by_cases hlt : k < its.length
      · have e1 : ms[k]? = some (ms[k]'(by omega)) := List.getElem?_eq_getElem (by omega)
        have e2 : ms'[k]? = some (ms'[k]'(by omega)) := List.getElem?_eq_getElem (by omega)
        have e3 : its[k]? = some its[k] := List.getElem?_eq_getElem hlt
        rw [e1, e2, ih k _ _ e3 e1 (hs _ (List.getElem_mem _)) (g3 k _ _ e3 e2)]
      · rw [List.getElem?_eq_none (by omega), List.getElem?_eq_none (by omega)]

/-- C65 where the statements say exactly one thing (`m`): the map keeps it. -/
theorem C65_exact_partial (ops more : List JOp) (w w1 w2 : World) (j k : Nat) (module_ : Bool) (m : PlacedMarks)
    (r : World.run ops = .ok w) (hp : ∀ op ∈ ops, op.Proper) (hf : ∀ op ∈ ops, Spec.JOp.FewLines op)
    (hr : ∀ op ∈ ops, Spec.JOp.Exact op) (hah : ∀ op ∈ ops, Spec.JOp.Ahead op)
    (ho : Orderly (jthings ops) (jmade ops) (mentions ops) (.obj j)) (hs : Steady (jthings ops) (.obj j))
    (hm : JCarries (jthings ops) (jmade ops) (.obj j) m)
    (e : (JOp.sourceAndMap j true module_).run w = .ok (.pair k, w1)) (e2 : w1.runFrom more = .ok w2)
    (hg : ∀ op ∈ more, ¬ op.gives k) (hset : ∀ a, .set k a ∉ more) : KeepsPlaces w2 k m := by
  obtain ⟨m', h1, h2⟩ := C65_partial ops more w w1 w2 j k module_ r hp hf hr hah ho e e2 hg hset
  have T : Together (jmade ops) (jthings ops) := by
    exact together ops (made := []) (st := []) ⟨rfl, fun j op x h => by simp at h⟩
  rw [hm.unique T hs h1] at h2
  exact h2

/-! Non-trivial case: two files, the one that is mentioned later comes first; statements are deleted at the
end and at the beginning, one is replaced. -/

/-- The program. -/
def c65Program : List JOp :=
  [.newOriginal "p;q;\n".toList "b.js".toList, .newOriginal "a;b;c;".toList "a.js".toList, .newReplace (.obj 1),
   .replace 2 2 3 "X".toList, .replace 2 4 5 [], .newReplace (.obj 0), .replace 3 0 1 [],
   .newPrefix "> ".toList (.obj 0), .newConcat [.obj 2, .str "/\n".toList, .obj 4, .obj 3]]

/-- What it says of its last object. -/
def c65Marks : PlacedMarks :=
  c63From "a;" "a.js" 1 0 none ++ ("X/\n".toList.map fun c => (c, none)) ++
  c63From "> p;" "b.js" 1 0 none ++ c63From "q;\n" "b.js" 1 2 none ++ c63From "q;\n" "b.js" 1 2 none

example : (∀ op ∈ c65Program, op.Proper) ∧ (∀ op ∈ c65Program, Spec.JOp.FewLines op) ∧
    (∀ op ∈ c65Program, Spec.JOp.Ahead op) ∧ ∀ op ∈ c65Program, Spec.JOp.Exact op := by
  refine ⟨?_, ?_, ?_, ?_⟩
  · simp [c65Program, JOp.Proper]
    simp only [Spec.Proper]
    decide +kernel
  · simp only [c65Program, List.forall_mem_cons, Spec.JOp.FewLines]
    unfold Spec.FewLines
    exact ⟨by decide, by decide, trivial, by decide, by decide, trivial, by decide, trivial, trivial, by simp⟩
  · simp only [c65Program, List.forall_mem_cons, Spec.JOp.Ahead]
    exact ⟨trivial, trivial, trivial, by decide +kernel, by decide +kernel, trivial, by decide +kernel, trivial, trivial, by simp⟩
  · intro op h
    simp only [c65Program, List.mem_cons, List.not_mem_nil, or_false] at h
    rcases h with rfl | rfl | rfl | rfl | rfl | rfl | rfl | rfl | rfl
    · trivial
    · trivial
    all_goals trivial

/-- Both edited objects. -/
theorem c65Edited : JCarries (jthings c65Program) (jmade c65Program) (.obj 2)
      (c63From "a;" "a.js" 1 0 none ++ [('X', none)]) ∧
    JCarries (jthings c65Program) (jmade c65Program) (.obj 3) (c63From "q;\n" "b.js" 1 2 none) := by
  constructor
  · refine .replaced (es := [(⟨4, 5, []⟩, 1), (⟨2, 3, "X".toList⟩, 0)]) (c := .obj 1)
      (rs := [⟨2, 3, "X".toList⟩, ⟨4, 5, []⟩]) (m := ownPlaces (some "a.js".toList) (1, 0) (segments "a;b;c;".toList))
      (by decide +kernel) ⟨.swap _ _ _, by simp [Before]; decide +kernel⟩ ?_
    exact .leaf rfl (.original rfl)
  · refine .replaced (es := [(⟨0, 1, []⟩, 0)]) (c := .obj 0)
      (rs := [⟨0, 1, []⟩]) (m := ownPlaces (some "b.js".toList) (1, 0) (segments "p;q;\n".toList))
      (by decide +kernel) ⟨.refl _, by simp⟩ ?_
    exact .leaf rfl (.original rfl)

set_option synthInstance.maxSize 1000 in
example : JCarries (jthings c65Program) (jmade c65Program) (.obj 5) c65Marks := by
  have e : c65Marks = [c63From "a;" "a.js" 1 0 none ++ [('X', none)], ("/\n".toList.map fun c => (c, none)),
      indentP "> ".toList (ownPlaces (some "b.js".toList) (1, 0) (segments "p;q;\n".toList)),
      c63From "q;\n" "b.js" 1 2 none].flatten := by decide +kernel
  rw [e]
  refine .joined (items := [.obj 2, .str "/\n".toList, .obj 4, .obj 3]) (by decide +kernel) rfl ?_
  intro k i m hi hm
  match k, hi, hm with
  | 0, hi, hm => cases hi; cases hm; exact c65Edited.1
  | 1, hi, hm => cases hi; cases hm; exact .str _
  | 2, hi, hm =>
    cases hi; cases hm
    exact .prefixed (p := "> ".toList) (c := .obj 0) (by decide +kernel)
      (.leaf rfl (.original rfl))
      (prefixedP_indent _ _) fun _ => rfl
  | 3, hi, hm => cases hi; cases hm; exact c65Edited.2
  | k + 4, hi, hm => simp at hi

example : Steady (jthings c65Program) (.obj 5) := by
  refine .joined (items := [.obj 2, .str "/\n".toList, .obj 4, .obj 3]) (by decide +kernel) ?_
  intro i hi
  simp only [List.mem_cons, List.not_mem_nil, or_false] at hi
  rcases hi with rfl | rfl | rfl | rfl
  · exact .replaced (c := .obj 1) (rs := [⟨2, 3, "X".toList⟩, ⟨4, 5, []⟩]) (by decide +kernel) (.leaf rfl)
  · exact .str _
  · exact .prefixed (p := "> ".toList) (c := .obj 0) (by decide +kernel) (.leaf rfl)
  · exact .replaced (c := .obj 0) (rs := [⟨0, 1, []⟩]) (by decide +kernel) (.leaf rfl)

example : Orderly (jthings c65Program) (jmade c65Program) (mentions c65Program) (.obj 5) := by
  refine .joined (items := [.obj 2, .str "/\n".toList, .obj 4, .obj 3]) (by decide +kernel) ?_ ?_
  · intro i hi
    simp only [List.mem_cons, List.not_mem_nil, or_false] at hi
    rcases hi with rfl | rfl | rfl | rfl
    · refine .forwards (u := ownPlaces (some "a.js".toList) (1, 0) (segments "a;b;c;".toList))
        (.replaced (c := .obj 1) (rs := [⟨2, 3, "X".toList⟩, ⟨4, 5, []⟩]) (by decide +kernel)
          (.leaf rfl (.original rfl))) (by decide +kernel)
    · exact .unreplaced (.str _ (.inl rfl))
    · exact .unreplaced (.prefixed (p := "> ".toList) (c := .obj 0) (by decide +kernel) (.leaf rfl))
    · refine .forwards (u := ownPlaces (some "b.js".toList) (1, 0) (segments "p;q;\n".toList))
        (.replaced (c := .obj 0) (rs := [⟨0, 1, []⟩]) (by decide +kernel)
          (.leaf rfl (.original rfl))) (by decide +kernel)
  · intro k i hi
    match k, hi with
    | 0, hi => exact .inr (.inr ⟨_, rfl, .inl ⟨_, rfl, by decide⟩⟩)
    | 1, hi => cases hi; exact .inl (.str _ (.inl rfl))
    | 2, hi => cases hi; exact .inl (.prefixed (p := "> ".toList) (c := .obj 0) (by decide +kernel) (.leaf rfl))
    | 3, hi => exact .inr (.inl rfl)
    | k + 4, hi => simp at hi

example : ((World.run (c65Program ++ [.sourceAndMap 5 true true])).toOption.map fun w =>
    [JField.source, .sources, .names, .mappings].map fun f => ((JOp.get 0 f).run w).toOption.map Prod.fst) =
    some [some (.field (.text "a;X/\n> p;q;\nq;\n".toList)),
      some (.field (.list [some "a.js".toList, some "b.js".toList])),
      some (.field (.list [])),
      some (.field (.text "AAAA,EAAE,C,AAAE;ACAJ,IAAE;AAAF,AAAE".toList))] := by decide +kernel

/-! ## Files in the wrong order -/

/-- A statement is deleted, then code from a file follows that was mentioned earlier. -/
def C65_backwards : List JOp :=
  [.newOriginal "x".toList "x.js".toList, .newOriginal "ab;cd;".toList "a.js".toList, .newReplace (.obj 1),
   .replace 2 3 5 [], .newConcat [.obj 2, .obj 0]]


/-- What its statements say of its last object. -/
def C65_backwardsMarks : PlacedMarks := c63From "ab;" "a.js" 1 0 none ++ c63From "x" "x.js" 1 0 none

/-- Without `Orderly` the claim is false: the statements say one thing, and the map says something else:
that `x` comes from the place of the deleted statement. -/
theorem C65_not_general :
    (∀ op ∈ C65_backwards, op.Proper) ∧ (∀ op ∈ C65_backwards, Spec.JOp.FewLines op) ∧
    (∀ op ∈ C65_backwards, Spec.JOp.Exact op) ∧ (∀ op ∈ C65_backwards, Spec.JOp.Ahead op) ∧
    JCarries (jthings C65_backwards) (jmade C65_backwards) (.obj 3) C65_backwardsMarks ∧
    ∃ w w1, World.run C65_backwards = .ok w ∧ (JOp.sourceAndMap 3 true true).run w = .ok (.pair 0, w1) ∧
      ¬ ∃ m, JCarries (jthings C65_backwards) (jmade C65_backwards) (.obj 3) m ∧ KeepsPlaces w1 0 m := by
  have hm : JCarries (jthings C65_backwards) (jmade C65_backwards) (.obj 3) C65_backwardsMarks := by
    have e : C65_backwardsMarks = [c63From "ab;" "a.js" 1 0 none, c63From "x" "x.js" 1 0 none].flatten := by
      decide +kernel
    rw [e]
    refine .joined (items := [.obj 2, .obj 0]) (by decide +kernel) rfl ?_
    intro k i m hi hm
    match k, hi, hm with
    | 0, hi, hm =>
      cases hi; cases hm
      refine .replaced (es := [(⟨3, 5, []⟩, 0)]) (c := .obj 1) (rs := [⟨3, 5, []⟩])
        (m := ownPlaces (some "a.js".toList) (1, 0) (segments "ab;cd;".toList)) (by decide +kernel)
        ⟨.refl _, by simp⟩ (.leaf rfl (.original rfl))
    | 1, hi, hm =>
      cases hi; cases hm
      exact .leaf (m := ownPlaces (some "x.js".toList) (1, 0) (segments "x".toList)) rfl (.original rfl)
    | k + 2, hi, hm => simp at hi
  have hs : Steady (jthings C65_backwards) (.obj 3) := by
    refine .joined (items := [.obj 2, .obj 0]) (by decide +kernel) ?_
    intro i hi
    simp only [List.mem_cons, List.not_mem_nil, or_false] at hi
    rcases hi with rfl | rfl
    · exact .replaced (c := .obj 1) (rs := [⟨3, 5, []⟩]) (by decide +kernel) (.leaf rfl)
    · exact .leaf rfl
  refine ⟨?_, ?_, ?_, ?_, hm, ?_⟩
  · simp [C65_backwards, JOp.Proper]
    simp only [Spec.Proper]
    decide +kernel
  · simp only [C65_backwards, List.forall_mem_cons, Spec.JOp.FewLines]
    unfold Spec.FewLines
    exact ⟨by decide, by decide, trivial, by decide, trivial, by simp⟩
  · intro op h
    simp only [C65_backwards, List.mem_cons, List.not_mem_nil, or_false] at h
    rcases h with rfl | rfl | rfl | rfl | rfl
    · trivial
    · trivial
    all_goals trivial
  · simp only [C65_backwards, List.forall_mem_cons, Spec.JOp.Ahead]
    exact ⟨trivial, trivial, trivial, by decide +kernel, trivial, by simp⟩
  · have key : ((World.run C65_backwards).toOption.bind fun w =>
        ((JOp.sourceAndMap 3 true true).run w).toOption.map fun x => (x.1,
          [JField.sources, .names, .mappings].map fun f => ((JOp.get 0 f).run x.2).toOption.map Prod.fst)) =
        some (.pair 0, [some (.field (.list [some "a.js".toList, some "x.js".toList])), some (.field (.list [])),
          some (.field (.text "AAAA,GCAA,ADAG".toList))]) := by decide +kernel
    have tok : ∀ {ε α : Type} (x : α), (Except.ok x : Except ε α).toOption = some x := fun _ => rfl
    cases h1 : World.run C65_backwards with
    | error e => rw [h1] at key; cases key
    | ok w =>
      rw [h1] at key
      rw [tok, Option.bind_some] at key
      cases h2 : (JOp.sourceAndMap 3 true true).run w with
      | error e => rw [h2] at key; cases key
      | ok x =>
        obtain ⟨a, w1⟩ := x
        rw [h2, tok] at key
        simp only [Option.map_some, List.map_cons, List.map_nil, Option.some.injEq, Prod.mk.injEq,
          List.cons.injEq, and_true] at key
        obtain ⟨rfl, k1, k2, k3⟩ := key
        have back : ∀ {f : JField} {v : JFieldVal}, ((JOp.get 0 f).run w1).toOption.map Prod.fst =
            some (.field v) → Reads w1 0 f v := by
          intro f v h
          cases hx : (JOp.get 0 f).run w1 with
          | error e => rw [hx] at h; cases h
          | ok y =>
            rw [hx, tok] at h
            obtain ⟨y1, y2⟩ := y
            simp only [Option.map_some, Option.some.injEq] at h
            subst h
            exact ⟨_, hx⟩
        refine ⟨w, w1, rfl, h2, ?_⟩
        rintro ⟨m, g1, -, l, ns, s, ps, r1, r2, r3, r4, r5⟩
        have T : Together (jmade C65_backwards) (jthings C65_backwards) := by
          exact together C65_backwards (made := []) (st := []) ⟨rfl, fun j op x h => by simp at h⟩
        rw [hm.unique T hs g1] at r5
        cases reads_unique r1 (back k1)
        cases reads_unique r2 (back k2)
        cases reads_unique r3 (back k3)
        have hp : points (idTable 2) (idTable 0) "AAAA,GCAA,ADAG".toList =
            some [⟨1, 0, some ⟨0, 1, 0, none⟩⟩, ⟨1, 3, some ⟨1, 1, 0, none⟩⟩, ⟨1, 3, some ⟨0, 1, 3, none⟩⟩] := by
          decide +kernel
        rw [show points (idTable 2) (idTable 0) "AAAA,GCAA,ADAG".toList = some ps from r4] at hp
        cases hp
        have := r5 3 'x' ⟨some "x.js".toList, 1, 0, none⟩ (by decide +kernel)
        exact absurd this (by decide +kernel)

end WS
