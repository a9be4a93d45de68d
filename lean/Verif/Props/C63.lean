import Verif.Proofs.SmsMarks
import Verif.Props.C26
import Verif.Props.C53
import Verif.Props.C60
import Verif.Props.C62
/-!
# C63: what the column maps of a program say

Claim: the map of `sourceAndMap()` of an object made by a program attributes every character to the
file, line and column, and gives it the name, that the program's statements say: the characters of an
`OriginalSource` to the start of their own segment, those of a `LineToLineMappedSource` to the start of
their own line, those of a `SourceMapSource` to what the map given with them says, looked up in the inner
map where it says its own name, and the characters of other objects to what is said of the objects they
are made of.
-/

namespace WS
open Spec

/-! ## Spec: what the statements of a program say -/

/-- The segments that are not just white space come from the place counted at their start: their line, and
the bytes before them in it that are in segments that are not just white space (`ownPlaces_start`: the
place they are at, if all characters are one byte and carriage returns stand at ends of lines). -/
def Spec.ownPlaces (file : JVal) : Nat × Nat → List (List Char) → PlacedMarks
  | _, [] => []
  | p, g :: gs =>
    (g.map fun c => (c, if ∀ c ∈ g, white c then none else some ⟨file, p.1, p.2, none⟩)) ++
      ownPlaces file (counted p g) gs

/-- The characters of a text, each with what is said of its line and column. -/
def Spec.placedBy (f : Nat → Nat → Option Place) : Nat × Nat → List Char → PlacedMarks
  | _, [] => []
  | p, c :: s => (c, f p.1 p.2) :: placedBy f (advance p c) s

/-- What a map says of a line and column. -/
def Spec.told (ss ns : List JVal) (ps : List Point) (l c : Nat) : Option Place :=
  (lookup ps l c).map fun o =>
    ⟨(ss[o.source.toNat]?).getD none, o.line, o.col, o.name.map fun n => (ns[n.toNat]?).getD none⟩

/-- A place in the file itself is looked up in the inner map. -/
def Spec.through (file : JVal) (inner : Nat → Nat → Option Place) (p : Place) : Place :=
  if p.file = file then
    match inner p.line p.col with
    | some q => { q with name := q.name.or p.name }
    | none => p
  else p

/-- `b` is `a` with prefixes inserted: at most one at each line start and none elsewhere, each from one
place. The flag says whether a line starts here. -/
inductive Spec.PrefixedP (pre : List Char) : Bool → PlacedMarks → PlacedMarks → Prop
  | done (s : Bool) : PrefixedP pre s [] []
  | keep {s : Bool} (c : Char) (o : Option Place) {a b : PlacedMarks} :
      PrefixedP pre (c == '\n') a b → PrefixedP pre s ((c, o) :: a) ((c, o) :: b)
  | insert (o : Option Place) {a b : PlacedMarks} :
      PrefixedP pre false a b → PrefixedP pre true a ((pre.map fun c => (c, o)) ++ b)

/-- Insert the prefix after every newline that is not the end, from where the next character comes. -/
def Spec.indentRestP (pre : List Char) : PlacedMarks → PlacedMarks
  | [] => []
  | (c, o) :: rest =>
    (c, o) :: ((if c = '\n' ∧ rest ≠ [] then pre.map fun c => (c, rest.head?.bind Prod.snd) else []) ++
      indentRestP pre rest)

/-- Insert the prefix at every line start, unless there is nothing. -/
def Spec.indentP (pre : List Char) (m : PlacedMarks) : PlacedMarks :=
  if m = [] then [] else (pre.map fun c => (c, m.head?.bind Prod.snd)) ++ indentRestP pre m

/-- No `ReplaceSource` is in there; unless `e`, no empty string either. -/
inductive Spec.Unreplaced (st : List JThing) (e : Bool) : JSrc → Prop where
  | str (s : List Char) : (e = true ∨ s ≠ []) → Unreplaced st e (.str s)
  | leaf {j : Nat} {v : List Char} {x : List (List Char)} : st[j]? = some (.leaf v x) → Unreplaced st e (.obj j)
  | prefixed {j : Nat} {p : List Char} {c : JSrc} : st[j]? = some (.prefixed p c) → Unreplaced st e c →
      Unreplaced st e (.obj j)
  | joined {j : Nat} {items : List JSrc} : st[j]? = some (.joined items) → (∀ i ∈ items, Unreplaced st e i) →
      Unreplaced st e (.obj j)

/-- The characters of a source with where they come from. `made[j]` is the statement that made object
`j`, `st[j]` what the later statements made of it. -/
inductive Spec.JPlaces (st : List JThing) (made : List JOp) : JSrc → PlacedMarks → Prop where
  | str (s : List Char) : JPlaces st made (.str s) (s.map fun c => (c, none))
  | raw {j : Nat} {v : List Char} : made[j]? = some (.newRaw v) →
      JPlaces st made (.obj j) (v.map fun c => (c, none))
  | original {j : Nat} {v n : List Char} : made[j]? = some (.newOriginal v n) →
      JPlaces st made (.obj j) (ownPlaces (some n) (1, 0) (segments v))
  | l2l {j : Nat} {v n o : List Char} : made[j]? = some (.newL2l v n o) →
      JPlaces st made (.obj j) (placedBy (fun l _ => some ⟨some n, l, 0, none⟩) (1, 0) v)
  | sms {j : Nat} {v n : List Char} {ss cs ns : List JVal} {mp : List Char} {o : Option (List Char)}
      {ps : List Point} : made[j]? = some (.newSms v n (.plain ss cs ns mp) o none) →
      points (idTable ss.length) (idTable ns.length) mp = some ps →
      JPlaces st made (.obj j) (placedBy (told ss ns ps) (1, 0) v)
  | inner {j : Nat} {v n : List Char} {ss cs ns ss' cs' ns' : List JVal} {mp mp' : List Char}
      {o : Option (List Char)} {ps ps' : List Point} :
      made[j]? = some (.newSms v n (.plain ss cs ns mp) o (some (.plain ss' cs' ns' mp'))) →
      points (idTable ss.length) (idTable ns.length) mp = some ps →
      points (idTable ss'.length) (idTable ns'.length) mp' = some ps' →
      JPlaces st made (.obj j)
        (placedBy (fun l c => (told ss ns ps l c).map (through (some n) (told ss' ns' ps'))) (1, 0) v)
  | prefixed {j : Nat} {p : List Char} {c : JSrc} {m m' : PlacedMarks} : st[j]? = some (.prefixed p c) →
      JPlaces st made c m → PrefixedP p true m m' → (Unreplaced st false c → m' = indentP p m) →
      JPlaces st made (.obj j) m'
  | joined {j : Nat} {items : List JSrc} {ms : List PlacedMarks} :
      st[j]? = some (.joined items) → ms.length = items.length →
      (∀ (k : Nat) (i : JSrc) (m : PlacedMarks), items[k]? = some i → ms[k]? = some m → JPlaces st made i m) →
      JPlaces st made (.obj j) ms.flatten

/-- A well-formed map: its numbers fit 32 bits, its segments are at strictly increasing positions and no
entry of its lists is repeated. -/
def Spec.WellMade (ss ns : List JVal) (mp : List Char) : Prop :=
  ∃ ps, points (idTable ss.length) (idTable ns.length) mp = some ps ∧ (∀ p ∈ ps, p.Small) ∧
    ps.Pairwise Point.Lt ∧ (ss.length ≤ 4294967296 ∧ ss.Nodup) ∧ ns.length ≤ 4294967296 ∧ ns.Nodup

/-- Maps are given as well-formed ordinary objects. -/
def Spec.JOp.Exact : JOp → Prop
  | .newSms _ _ map _ inner => (∃ ss cs ns mp, map = .plain ss cs ns mp ∧ WellMade ss ns mp) ∧
      ∀ i, inner = some i → ∃ ss cs ns mp, i = .plain ss cs ns mp ∧ WellMade ss ns mp
  | _ => True

/-! ## Originals -/

theorem placed_uniform (t : StrTable JVal) (o : Option Origin) (s : Str) :
    placed t (uniform o s) = s.map fun c => (c, o.map (place t)) := by
  simp [placed, uniform, Function.comp_def]

theorem ownPlaces_eq (f : JVal) : ∀ (gs : List (List Char)) (p : Nat × Nat),
    (ownPlaces f p gs).map Prod.fst = gs.flatten ∧
    (ownPlaces f p gs).map Prod.snd =
      (countedPlaces p gs).map (Option.map fun q => (⟨f, q.1, q.2, none⟩ : Place))
  | [], _ => ⟨rfl, rfl⟩
  | g :: gs, p => by
    obtain ⟨i1, i2⟩ := ownPlaces_eq f gs (counted p g)
    rw [ownPlaces, countedPlaces, List.map_append, List.map_append, List.map_append, i1, i2]
    constructor
    · simp [Function.comp_def]
    · congr 1
      rw [List.map_map, List.map_map]
      apply List.map_congr_left
      intro c _
      simp only [Function.comp_apply]
      split <;> rfl

theorem segments_flatten : ∀ v : Str, (segments v).flatten = v
  | [] => rfl
  | [c] => rfl
  | c :: d :: s => by
    have ih := segments_flatten (d :: s)
    rw [segments]
    split
    · rw [List.flatten_cons, ih]; rfl
    · split
      · rename_i h; rw [h] at ih; cases ih
      · rename_i g gs h
        rw [h, List.flatten_cons] at ih
        rw [List.flatten_cons, List.cons_append, ih]

theorem original_places {t : StrTable JVal} {i k : Int} {f : JVal} {v : Str} (hf : t.name i = f) :
    placed t (originalNode true v i k).marks = ownPlaces f (1, 0) (segments v) := by
  obtain ⟨h1, h2⟩ := ownPlaces_eq f (segments v) (1, 0)
  have ext : ∀ {a b : PlacedMarks}, a.map Prod.fst = b.map Prod.fst → a.map Prod.snd = b.map Prod.snd → a = b := by
    intro a
    induction a with
    | nil => intro b h _; cases b with
      | nil => rfl
      | cons => cases h
    | cons x a ih => intro b h h'; cases b with
      | nil => cases h
      | cons y b =>
        simp only [List.map_cons, List.cons.injEq] at h h'
        rw [ih h.2 h'.2, Prod.ext h.1 h'.1]
  refine ext ?_ ?_
  · rw [h1, segments_flatten]
    have : (originalNode true v i k).marks.map Prod.fst = v := by
      rw [SmNode.marks, marked_fst, originalNode_leaves, (linesLeaves_spec ..).1, splitKeep_flatten]
    refine Eq.trans ?_ this
    rw [placed, List.map_map]
    rfl
  · rw [h2]
    have := congrArg (List.map (Option.map (place t))) (original_counted v i k)
    rw [List.map_map, List.map_map] at this
    rw [placed, List.map_map]
    refine Eq.trans ?_ (this.trans ?_)
    · rfl
    · apply List.map_congr_left
      intro q _
      cases q <;> simp [place, hf]

/-- The code of an `OriginalSource` of characters of one byte with carriage returns only at ends of lines
comes from its own place. -/
theorem ownPlaces_start (f : JVal) {v : Str} (ha : ∀ c ∈ v, c.utf8Size = 1) (hr : ReturnsAtEnd v) :
    (ownPlaces f (1, 0) (segments v)).map Prod.snd =
      (startPlaces (1, 0) (segments v)).map (Option.map fun q => (⟨f, q.1, q.2, none⟩ : Place)) := by
  rw [(ownPlaces_eq f _ _).2, countedPlaces_own ha hr]

/-! ## Line to line -/

theorem placedBy_append (f : Nat → Nat → Option Place) : ∀ (a b : Str) (p : Nat × Nat),
    placedBy f p (a ++ b) = placedBy f p a ++ placedBy f (posFrom p a) b
  | [], b, p => rfl
  | c :: a, b, p => by
    rw [List.cons_append, placedBy, placedBy, placedBy_append f a b]
    rfl

theorem placedBy_line (o : Nat → Option Place) : ∀ (s : Str) (l c : Nat), (∀ a b, s = a ++ '\n' :: b → b = []) →
    placedBy (fun l _ => o l) (l, c) s = s.map fun x => (x, o l)
  | [], _, _, _ => rfl
  | x :: s, l, c, h => by
    rw [placedBy, List.map_cons]
    congr 1
    by_cases hx : x = '\n'
    · have : s = [] := h [] s (by rw [hx]; rfl)
      subst this; rfl
    · rw [advance, if_neg hx]
      exact placedBy_line o s l (c + 1) fun a b e => h (x :: a) b (by rw [e]; rfl)

theorem l2l_lines {t : StrTable JVal} {i : Int} {f : JVal} (hf : t.name i = f) (v : Str) : ∀ k : Nat,
    placed t (marked (linesLeaves false i k (splitKeep '\n' v))) =
      placedBy (fun l _ => some ⟨f, l, 0, none⟩) (k, 0) v := by
  have line : ∀ (k : Nat) (s : Str), (∀ a b, s = a ++ '\n' :: b → b = []) →
      placed t (marked (lineLeaves false i k s)) = placedBy (fun l _ => some ⟨f, l, 0, none⟩) (k, 0) s := by
    intro k s h
    rw [placedBy_line (fun l => some ⟨f, l, 0, none⟩) s k 0 h, lineLeaves]
    cases s with
    | nil => rfl
    | cons c s => simp [marked, placed, place, hf, Function.comp_def]
  induction v using piece_induction '\n' with
  | base s h =>
    intro k
    rw [splitKeep_of_not_mem h, linesLeaves, linesLeaves, List.append_nil]
    exact line k s fun a b e => absurd (by rw [e]; simp) h
  | step x r hx ih =>
    intro k
    have e : x ++ '\n' :: r = (x ++ ['\n']) ++ r := by simp
    have hp : posFrom (k, 0) (x ++ ['\n']) = (k + 1, 0) := by
      rw [posFrom_append, posFrom_of_not_mem hx]; rfl
    rw [splitKeep_append_sep hx, linesLeaves, marked_append, placed_append, ih, e, placedBy_append, hp]
    congr 1
    refine line k _ fun a b e => ?_
    rcases List.append_eq_append_iff.1 e with ⟨t, h1, h2⟩ | ⟨t, h1, h2⟩
    · cases t with
      | nil => simp at h2; exact h2
      | cons d t => simp at h2
    · cases t with
      | nil => simp at h2; exact h2
      | cons d t =>
        simp at h2
        exact absurd (by rw [h1, ← h2.1]; simp) hx

/-! ## Given maps -/

theorem StrTable.Lists.names {t : StrTable JVal} {ids : List Int} {vs : List JVal} (h : t.Lists ids vs) :
    vs = ids.map t.name := by
  apply List.ext_getElem?
  intro k
  rw [List.getElem?_map]
  by_cases hk : k < vs.length
  · have h1 : vs[k]? = some vs[k] := List.getElem?_eq_getElem hk
    have h2 : ids[k]? = some (ids[k]'(by rw [h.1]; exact hk)) := List.getElem?_eq_getElem (by rw [h.1]; exact hk)
    rw [h1, h2, Option.map_some, (h.2 k _ _ h2 h1).calls.2]
  · rw [List.getElem?_eq_none (by omega), List.getElem?_eq_none (by rw [h.1]; omega)]
    rfl

theorem StrTable.Lists.nodup {t : StrTable JVal} {ids : List Int} {vs : List JVal} (h : t.Lists ids vs)
    (hn : vs.Nodup) : ids.Nodup := by
  rw [h.names] at hn
  exact List.Pairwise.of_map t.name (fun a b hab e => hab (by rw [e])) hn

/-- The map given, by the indices of its strings. -/
def byIds (S N : List Int) (ps : List Point) : List Point := (ps.map (renameName N)).map (renamePoint S)

theorem byIds_good {t : StrTable JVal} {S N : List Int} {ss ns : List JVal} {mp : Str} {ps : List Point}
    (hS : t.Lists S ss) (hN : t.Lists N ns) (hp : points (idTable ss.length) (idTable ns.length) mp = some ps)
    (hw : WellMade ss ns mp) : GoodMap S N mp (byIds S N ps) := by
  obtain ⟨qs, hq, h1, h2, h3, h4⟩ := hw
  rw [hp] at hq; cases hq
  refine ⟨?_, ?_, ?_, ⟨by rw [hS.1]; exact h3.1, hS.nodup h3.2⟩, ⟨by rw [hN.1]; exact h4.1, hN.nodup h4.2⟩⟩
  · rw [points_rename, points_renameName, hS.1, hN.1, hp]; rfl
  · intro p hp
    obtain ⟨q, hq, rfl⟩ := List.mem_map.1 hp
    obtain ⟨r, hr, rfl⟩ := List.mem_map.1 hq
    have := h1 r hr
    obtain ⟨k1, k3⟩ := this
    refine ⟨k1, ?_⟩
    intro o ho
    simp only [renamePoint, renameName, Option.map_map] at ho
    obtain ⟨o', ho', rfl⟩ := Option.map_eq_some_iff.1 ho
    exact k3 o' ho'
  · rw [byIds, List.map_map, List.pairwise_map]
    exact h2.imp fun h => h

/-- What the indices say is what the strings say, and the indices are those of the table. -/
theorem byIds_told {t : StrTable JVal} {S N : List Int} {ss ns : List JVal} {mp : Str} {ps : List Point}
    (hS : t.Lists S ss) (hN : t.Lists N ns) (hp : points (idTable ss.length) (idTable ns.length) mp = some ps)
    (l c : Nat) : (lookup (byIds S N ps) l c).map (place t) = told ss ns ps l c ∧
      ∀ o, lookup (byIds S N ps) l c = some o → ∃ v, Canon t (· = v) o.source := by
  rw [byIds, lookup_rename, lookup_renameName, told]
  cases hl : lookup ps l c with
  | none => exact ⟨rfl, fun o h => by cases h⟩
  | some x =>
    have h1 := lookup_inRange hp hl
    have h2 := lookup_nameRange hp hl
    have g1 : S[x.source.toNat]? = some (S[x.source.toNat]'(by rw [hS.1]; exact h1)) :=
      List.getElem?_eq_getElem (by rw [hS.1]; exact h1)
    refine ⟨?_, ?_⟩
    · simp only [Option.map_some, renameOrigin, renameNameOrigin, place, Option.map_map, Option.some.injEq,
        Place.mk.injEq, true_and]
      refine ⟨?_, ?_⟩
      · rw [hS.names, List.getElem?_map, g1]; rfl
      · cases hx : x.name with
        | none => rfl
        | some y =>
          have g2 : N[y.toNat]? = some (N[y.toNat]'(by rw [hN.1]; exact h2 y hx)) :=
            List.getElem?_eq_getElem (by rw [hN.1]; exact h2 y hx)
          simp only [Option.map_some, Function.comp_apply]
          rw [hN.names, List.getElem?_map, g2]; rfl
    · intro o ho
      cases ho
      refine ⟨ss[x.source.toNat], ?_⟩
      simp only [renameOrigin, renameNameOrigin]
      rw [g1]
      exact hS.2 _ _ _ g1 (List.getElem?_eq_getElem h1)

theorem marks_placedBy {t : StrTable JVal} {f : Nat → Nat → Option Place} {qs : List Point}
    (hf : ∀ l c, (lookup qs l c).map (place t) = f l c) {m : Marked} {v : Str} (hv : m.map Prod.fst = v)
    (ha : Attributes qs m) : placed t m = placedBy f (1, 0) v := by
  subst hv
  have key : ∀ (b a : Marked), (∀ (k : Nat) c o, b[k]? = some (c, o) →
      lookup qs (posAfter ((a ++ b.take k).map Prod.fst)).1 (posAfter ((a ++ b.take k).map Prod.fst)).2 = o) →
      placed t b = placedBy f (posAfter (a.map Prod.fst)) (b.map Prod.fst) := by
    intro b
    induction b with
    | nil => intro a _; rfl
    | cons x b ih =>
      intro a h
      obtain ⟨c, o⟩ := x
      have h0 := h 0 c o rfl
      simp only [List.take_zero, List.append_nil] at h0
      have := ih (a ++ [(c, o)]) (by
        intro k c' o' e
        have := h (k + 1) c' o' (by simpa using e)
        simpa [List.append_assoc] using this)
      rw [List.map_cons, placedBy, ← hf, h0]
      show (c, o.map (place t)) :: placed t b = _
      rw [this, List.map_append, List.map_singleton, posAfter_snoc]
  have := key m [] (fun k c o h => by rw [List.nil_append]; exact ha k c o h)
  exact this

/-- A generator that writes the map says what the map says. -/
theorem Generator.Wrote.means {g : Generator} {d : SmData} (h : g.Wrote d) {hd : SmHolder} (hg : hd.gen = some g)
    {qs : List Point} (hq : points d.sources d.names d.mappings = some qs) (hs : qs.Pairwise Point.Lt) :
    hd.Means qs := by
  obtain ⟨ok, ht, hord, m, g', hm, rfl⟩ := h
  have hle : g.mappings.sort.list.Pairwise (fun a b => Mapping.le a b = true) := by
    rw [MappingList.sort_list ht]; exact sortBy_sorted _
  obtain ⟨m', k1, -, -, -, k5⟩ := Generator.toSourceMap_ok ok hle
  rw [hm] at k1; cases k1
  have e : g.mappings.sort.list.map Mapping.point = qs := by
    have : mapPoints m = some qs := hq
    rw [k5] at this
    exact Option.some.inj this
  have e2 := hord (by rw [e]; exact hs)
  refine ⟨g, hd, by simp only [SmHolder.getGen, hg], ok, ht, by rw [← e2]; exact e, ?_, e⟩
  rw [← e2]
  exact sorted_points hle

theorem StrTable.Holds.means {t : StrTable JVal} {hd : SmHolder} {ss cs ns : List JVal} {mp : Str}
    (h : t.Holds hd ss cs ns mp) {ps : List Point} (hp : points (idTable ss.length) (idTable ns.length) mp = some ps)
    (hw : WellMade ss ns mp) : ∃ S N, t.Lists S ss ∧ t.Lists N ns ∧ hd.Means (byIds S N ps) := by
  obtain ⟨d, h1, -, rfl, hS, hN, -⟩ := h
  refine ⟨d.sources, d.names, hS, hN, ?_⟩
  have good := byIds_good hS hN hp hw
  rcases h1 with rfl | ⟨g, h1, -, h2⟩
  · exact good.means
  · exact h2.means h1 good.points good.strict

theorem sms_places {t : StrTable JVal} {v : Str} {vi i : Int} {hd : SmHolder} {orig : Option Int}
    {ss cs ns : List JVal} {mp : Str} {ps : List Point} (hh : t.Holds hd ss cs ns mp)
    (hp : points (idTable ss.length) (idTable ns.length) mp = some ps) (hw : WellMade ss ns mp)
    {n : SmNode} {s' : Sms} (e : (Sms.create v vi i hd orig none).node = .ok (n, s')) :
    placed t n.marks = placedBy (told ss ns ps) (1, 0) v := by
  obtain ⟨S, N, hS, hN, hm⟩ := hh.means hp hw
  obtain ⟨h1, h2⟩ := Sms.node_means hm e
  exact marks_placedBy (fun l c => (byIds_told hS hN hp l c).1) h1 h2

theorem sms_places_inner {t : StrTable JVal} {v f : Str} {vi i : Int} {hd ih : SmHolder} {orig : Option Int}
    {ss cs ns ss' cs' ns' : List JVal} {mp mp' : Str} {ps ps' : List Point} (hi : Canon t (· = some f) i)
    (hh : t.Holds hd ss cs ns mp) (hp : points (idTable ss.length) (idTable ns.length) mp = some ps)
    (hw : WellMade ss ns mp) (hh' : t.Holds ih ss' cs' ns' mp')
    (hp' : points (idTable ss'.length) (idTable ns'.length) mp' = some ps')
    (hw' : WellMade ss' ns' mp') {n : SmNode} {s' : Sms}
    (e : (Sms.create v vi i hd orig (some ih)).node = .ok (n, s')) :
    placed t n.marks =
      placedBy (fun l c => (told ss ns ps l c).map (through (some f) (told ss' ns' ps'))) (1, 0) v := by
  obtain ⟨S, N, hS, hN, hm⟩ := hh.means hp hw
  obtain ⟨S', N', hS', hN', hm'⟩ := hh'.means hp' hw'
  obtain ⟨h1, h2⟩ := Sms.node_means_inner hm hm' e
  refine marks_placedBy (fun l c => ?_) h1 h2
  obtain ⟨k1, k2⟩ := byIds_told hS hN hp l c
  rw [lookup_compose, ← k1]
  cases hl : lookup (byIds S N ps) l c with
  | none => rfl
  | some o =>
    obtain ⟨x, hx⟩ := k2 o hl
    simp only [Option.map_some, Option.some.injEq]
    unfold compose through
    by_cases hs : o.source = i
    · have hf : (place t o).file = some f := by
        show t.name o.source = some f
        rw [hs]; exact hi.calls.2
      rw [if_pos hs, if_pos hf]
      have := (byIds_told hS' hN' hp' o.line o.col).1
      show _ = match told ss' ns' ps' o.line o.col with | some q => _ | none => _
      rw [← this]
      cases lookup (byIds S' N' ps') o.line o.col with
      | none => rfl
      | some q =>
        simp only [Option.map_some, place, Place.mk.injEq, true_and]
        cases q.name <;> rfl
    · rw [if_neg hs, if_neg]
      intro hf
      exact hs (hx.inj hi (by rw [hi.calls.2]; exact hf))

/-! ## Prefixes -/

theorem PrefixedP.of {t : StrTable JVal} {pre : Str} {b : Bool} {m m' : Marked} (h : Prefixed pre b m m') :
    PrefixedP pre b (placed t m) (placed t m') := by
  induction h with
  | done s => exact .done s
  | keep c o _ ih => exact .keep c _ ih
  | insert o _ ih => rw [placed_append, placed_uniform]; exact .insert _ ih

theorem firstOrigin_placed (t : StrTable JVal) (m : Marked) :
    (firstOrigin m).map (place t) = (placed t m).head?.bind Prod.snd := by
  cases m with
  | nil => rfl
  | cons x m => rfl

theorem indentRestP_placed (t : StrTable JVal) (pre : Str) : ∀ m : Marked,
    placed t (indentRestM pre m) = indentRestP pre (placed t m)
  | [] => rfl
  | (c, o) :: m => by
    rw [indentRestM]
    show (c, o.map (place t)) :: placed t (_ ++ indentRestM pre m) = indentRestP pre ((c, o.map (place t)) :: placed t m)
    rw [indentRestP, placed_append, indentRestP_placed t pre m, ← firstOrigin_placed]
    have hm : placed t m ≠ [] ↔ m ≠ [] := by simp [placed]
    by_cases h : c = '\n' ∧ m ≠ []
    · rw [if_pos h, if_pos ⟨h.1, hm.2 h.2⟩, placed_uniform]
    · rw [if_neg h, if_neg (fun h' => h ⟨h'.1, hm.1 h'.2⟩)]; rfl

theorem indentP_placed (t : StrTable JVal) (pre : Str) (m : Marked) :
    placed t (indentM pre m) = indentP pre (placed t m) := by
  cases m with
  | nil => rfl
  | cons x m =>
    have h : placed t (x :: m) ≠ [] := by simp [placed]
    rw [indentM, indentP, if_neg (by simp), if_neg h, placed_append, placed_uniform, firstOrigin_placed,
      indentRestP_placed]

/-! ## Objects -/

theorem Spec.Unreplaced.mono {st : List JThing} {src : JSrc} (h : Unreplaced st false src) : Unreplaced st true src := by
  induction h with
  | str s _ => exact .str s (.inl rfl)
  | leaf h => exact .leaf h
  | prefixed h _ ih => exact .prefixed h ih
  | joined h _ ih => exact .joined h ih

theorem sms_item {mod : Bool} {s : Sms} {n : SmNode} (h : Tree.itemNode true mod (.sms s) = .ok n) :
    ∃ s', s.node = .ok (n, s') := by
  simp only [Tree.itemNode, Tree.node] at h
  cases hq : s.node with
  | error z => rw [hq] at h; cases h
  | ok q => rw [hq] at h; cases h; exact ⟨q.2, rfl⟩

/-- What is said of an object is what its node says. -/
theorem JPlaces.of_unfolds {w : World} {A : AHeap} {st : List JThing} {made : List JOp} {mod : Bool} (I : w.Inv A st)
    (L : w.Labels made) (hr : ∀ op ∈ made, Spec.JOp.Exact op) (hm : ∀ op ∈ made, Spec.JOp.makes op = true)
    {src' : Src} {t : Tree} (u : Unfolds A src' t) :
    ∀ src, tr (w.objs.map JObj.ptr) src = some src' → Unreplaced st true src →
      ∀ n, Tree.itemNode true mod t = .ok n →
      JPlaces st made src (placed w.strs n.marks) ∧ Quiet n.leaves ∧ (Unreplaced st false src → FullLeaves n.leaves) := by
  have leafCase : ∀ (i : Nat) (a : AObj), A[i]? = some a → ∀ src, tr (w.objs.map JObj.ptr) src = some (.ref i) →
      ∃ j op c, src = .obj j ∧ made[j]? = some op ∧ Spec.JOp.Exact op ∧ Spec.JOp.makes op = true ∧
        objOf w.log i c = some a ∧ Label w.strs (some c) op := by
    intro i a hA src e
    cases src with
    | str s => cases e
    | obj j =>
      obtain ⟨o, ho, rfl⟩ := tr_obj_inv e
      obtain ⟨op, h1, h2, h3⟩ := L.get ho
      have D := stepAll_described I.log o.ptr
      rw [hA] at D
      cases hc : (created w.log)[o.ptr]? with
      | none => rw [hc] at D; cases D
      | some c =>
        rw [hc] at D h3
        exact ⟨j, op, c, rfl, h1, hr op h2, hm op h2, D.symm, h3⟩
  have full : ∀ {t : Tree} {n : SmNode} {src : JSrc} {m : PlacedMarks}, t.IsSingle → t.node true mod = .ok n →
      JPlaces st made src m → m = placed w.strs n.marks →
      JPlaces st made src (placed w.strs n.marks) ∧ Quiet n.leaves ∧ (Unreplaced st false src → FullLeaves n.leaves) := by
    intro t n src m h1 h2 h3 h4
    exact ⟨h4 ▸ h3, .of_full (single_full h1 h2), fun _ => single_full h1 h2⟩
  induction u with
  | str s =>
    intro src e _ n hn
    cases hn
    cases src with
    | str s' =>
      cases e
      have : (SmNode.str s).marks = uniform none s := by simp [SmNode.marks, SmNode.leaves, marked, uniform]
      refine ⟨?_, ?_, ?_⟩
      · rw [this, placed_uniform]; exact .str s
      · intro l hl _
        simp only [SmNode.leaves, List.mem_cons, List.not_mem_nil, or_false] at hl
        rw [hl]
      · intro hu l hl
        simp only [SmNode.leaves, List.mem_cons, List.not_mem_nil, or_false] at hl
        rw [hl]
        cases hu with
        | str _ h => rcases h with h | h
                     · cases h
                     · exact h
    | obj j =>
      simp only [tr] at e
      cases hp : (w.objs.map JObj.ptr)[j]? with
      | none => rw [hp] at e; cases e
      | some p => rw [hp] at e; cases e
  | raw hA =>
    intro src e _ n hn
    obtain ⟨j, op, c, rfl, h1, h2, h3, h4, h5⟩ := leafCase _ _ hA src e
    cases c <;> simp [objOf] at h4
    subst h4
    cases op <;> simp [Label, Spec.JOp.makes] at h5 h3
    subst h5
    refine full (t := .raw _) trivial hn (.raw h1) ?_
    cases hn
    rw [SmNode.marks, rawNode_leaves]
    split
    · rename_i hv; rw [List.isEmpty_iff.1 hv]; rfl
    · simp [marked, placed, Function.comp_def]
  | original hA =>
    intro src e _ n hn
    obtain ⟨j, op, c, rfl, h1, h2, h3, h4, h5⟩ := leafCase _ _ hA src e
    cases c <;> simp [objOf] at h4
    obtain ⟨rfl, rfl, rfl⟩ := h4
    cases op with
    | newRaw v => cases h5
    | newOriginal v n =>
      obtain ⟨_, _, h5, h6, -⟩ := h5; cases h5
      refine full (t := .original _ _ _) trivial hn (.original h1) ?_
      cases hn
      exact (original_places h6.calls.2).symm
    | newL2l v n o => obtain ⟨_, _, h5, _⟩ := h5; cases h5
    | newSms v n map orig inner => obtain ⟨_, _, _, _, _, h5, _⟩ := h5; cases h5
    | newPrefix p x => obtain ⟨_, h5⟩ := h5; cases h5
    | newReplace x => obtain ⟨_, h5⟩ := h5; cases h5
    | newConcat x => cases h5
    | _ => cases h3
  | l2l hA =>
    intro src e _ n hn
    obtain ⟨j, op, c, rfl, h1, h2, h3, h4, h5⟩ := leafCase _ _ hA src e
    cases c <;> simp [objOf] at h4
    obtain ⟨rfl, rfl, rfl⟩ := h4
    cases op with
    | newRaw v => cases h5
    | newOriginal v n => obtain ⟨_, _, h5, _⟩ := h5; cases h5
    | newL2l v n o =>
      obtain ⟨_, _, h5, h6, -⟩ := h5; cases h5
      refine full (t := .l2l _ _ _) trivial hn (.l2l h1) ?_
      cases hn
      rw [SmNode.marks, l2lNode_leaves]
      exact (l2l_lines h6.calls.2 _ 1).symm
    | newSms v n map orig inner => obtain ⟨_, _, _, _, _, h5, _⟩ := h5; cases h5
    | newPrefix p x => obtain ⟨_, h5⟩ := h5; cases h5
    | newReplace x => obtain ⟨_, h5⟩ := h5; cases h5
    | newConcat x => cases h5
    | _ => cases h3
  | @sms i s hA =>
    intro src e _ n hn
    obtain ⟨j, op, c, rfl, h1, h2, h3, h4, h5⟩ := leafCase _ _ hA src e
    cases c <;> simp [objOf] at h4
    subst h4
    cases op with
    | newRaw v => cases h5
    | newOriginal v n => obtain ⟨_, _, h5, _⟩ := h5; cases h5
    | newL2l v n o => obtain ⟨_, _, h5, _⟩ := h5; cases h5
    | newSms v f map orig inner =>
      obtain ⟨vi, ni, hd, o', inn, h5, h6, h7, h8, h9, -⟩ := h5
      cases h5
      obtain ⟨⟨ss, cs, ns, mp, rfl, hw⟩, hin⟩ := h2
      have hh := h7 ss cs ns mp rfl
      obtain ⟨ps, hp, -⟩ := id hw
      obtain ⟨s', hq⟩ := sms_item hn
      cases inner with
      | none =>
        cases h8 rfl
        exact full (t := .sms _) trivial hn (.sms h1 hp) (sms_places hh hp hw hq).symm
      | some im =>
        obtain ⟨ss', cs', ns', mp', rfl, hw'⟩ := hin im rfl
        obtain ⟨ih, rfl, hh'⟩ := h9 ss' cs' ns' mp' rfl
        obtain ⟨ps', hp', -⟩ := id hw'
        exact full (t := .sms _) trivial hn (.inner h1 hp hp')
          (sms_places_inner h6 hh hp hw hh' hp' hw' hq).symm
    | newPrefix p x => obtain ⟨_, h5⟩ := h5; cases h5
    | newReplace x => obtain ⟨_, h5⟩ := h5; cases h5
    | newConcat x => cases h5
    | _ => cases h3
  | @prefixed i p c t hA hc ih =>
    intro src e hu n hn
    cases src with
    | str s => cases e
    | obj j =>
      obtain ⟨o, ho, rfl⟩ := tr_obj_inv e
      obtain ⟨y, hy, sim⟩ := I.sim.get' ho
      generalize o.kind = k at sim
      cases sim with
      | leaf hk hA' ha' => rw [hA] at hA'; cases hA'; cases ha'
      | @prefixed _ c0 _ hA' hc' =>
        rw [hA] at hA'; cases hA'
        have down : ∀ {b : Bool}, Unreplaced st b (.obj j) → Unreplaced st b c0 := by
          intro b h
          cases h with
          | leaf h => rw [hy] at h; cases h
          | prefixed h h' => rw [hy] at h; cases h; exact h'
          | joined h => rw [hy] at h; cases h
        change Tree.node true mod (.prefixed _ t) = .ok n at hn
        rw [Tree.node] at hn
        cases hl : t.node true mod with
        | error z => rw [hl] at hn; cases hn
        | ok m =>
          rw [hl] at hn; cases hn
          have hit : Tree.itemNode true mod t = .ok m := by
            cases t <;> first | exact hl | cases hl
          have hnode := Tree.node_isNode _ _ t m hl
          obtain ⟨k1, k2, k3⟩ := ih _ hc' (down hu) _ hit
          refine ⟨.prefixed hy k1 (PrefixedP.of (C37_kept p m hnode)) fun h => ?_, ?_, fun h => ?_⟩
          · rw [C37_exact p m hnode (k3 h), indentP_placed]
          · rw [(prefixNode_leaves p hnode).2]; exact k2.prefixed p _ true
          · rw [(prefixNode_leaves p hnode).2]; exact full_prefix p _ true (k3 (down h))
      | replaced hA' _ => rw [hA] at hA'; cases hA'
      | joined hA' _ => rw [hA] at hA'; cases hA'
  | @replace i c cs t hA hc ih =>
    intro src e hu n hn
    cases src with
    | str s => cases e
    | obj j =>
      obtain ⟨o, ho, rfl⟩ := tr_obj_inv e
      obtain ⟨y, hy, sim⟩ := I.sim.get' ho
      generalize o.kind = k at sim
      cases sim with
      | leaf hk hA' ha' => rw [hA] at hA'; cases hA'; cases ha'
      | prefixed hA' hc' => rw [hA] at hA'; cases hA'
      | replaced hA' hc' =>
        cases hu with
        | leaf h => rw [hy] at h; cases h
        | prefixed h h' => rw [hy] at h; cases h
        | joined h => rw [hy] at h; cases h
      | joined hA' _ => rw [hA] at hA'; cases hA'
  | @concat i is ts hA hl hk ih =>
    intro src e hu n hn
    cases src with
    | str s => cases e
    | obj j =>
      obtain ⟨o, ho, rfl⟩ := tr_obj_inv e
      obtain ⟨y, hy, sim⟩ := I.sim.get' ho
      generalize o.kind = k at sim
      cases sim with
      | leaf hk hA' ha' => rw [hA] at hA'; cases hA'; cases ha'
      | prefixed hA' hc' => rw [hA] at hA'; cases hA'
      | replaced hA' _ => rw [hA] at hA'; cases hA'
      | @joined cs its is' hA' hi =>
        rw [hA] at hA'; cases hA'
        have hlen : its.length = is.length := by simpa using congrArg List.length hi
        have down : ∀ {b : Bool}, Unreplaced st b (.obj j) → ∀ i ∈ its, Unreplaced st b i := by
          intro b h
          cases h with
          | leaf h => rw [hy] at h; cases h
          | prefixed h h' => rw [hy] at h; cases h
          | joined h h' => rw [hy] at h; cases h; exact h'
        change Tree.node true mod (.concat ts) = .ok n at hn
        rw [Tree.node, Tree.nodes_eq] at hn
        cases hxs : allM (Tree.itemNode true mod) ts with
        | error z => rw [hxs] at hn; cases hn
        | ok xs =>
          rw [hxs] at hn; cases hn
          obtain ⟨q1, q2⟩ := allM_each hxs
          have each : ∀ (k : Nat) (x : SmNode), xs[k]? = some x → ∃ i, its[k]? = some i ∧
              JPlaces st made i (placed w.strs x.marks) ∧ Quiet x.leaves ∧
              (Unreplaced st false i → FullLeaves x.leaves) := by
            intro k x hx
            have hk' : k < xs.length := (List.getElem?_eq_some_iff.1 hx).1
            have e2 : is[k]? = some (is[k]'(by omega)) := List.getElem?_eq_getElem (by omega)
            have e3 : ts[k]? = some (ts[k]'(by omega)) := List.getElem?_eq_getElem (by omega)
            have e1 : its[k]? = some (its[k]'(by omega)) := List.getElem?_eq_getElem (by omega)
            exact ⟨_, e1, ih k _ _ e2 e3 (its[k]'(by omega)) (by
              have := congrArg (fun l => l[k]?) hi
              simpa [List.getElem?_map, e1, e2] using this) (down hu _ (List.mem_of_getElem? e1)) _
              (q2 k _ _ e3 hx)⟩
          refine ⟨?_, ?_, fun h => ?_⟩
          · have : placed w.strs (SmNode.mkVec none none none xs).marks =
                (xs.map fun x => placed w.strs x.marks).flatten := by
              rw [mkVec_marks, placed, List.map_flatten, List.map_map]; rfl
            rw [this]
            refine .joined hy (by simp; omega) ?_
            intro k i m h1 h2
            rw [List.getElem?_map] at h2
            obtain ⟨x, hx, rfl⟩ := Option.map_eq_some_iff.1 h2
            obtain ⟨i', h3, h4, -⟩ := each k x hx
            rw [h1] at h3; cases h3; exact h4
          · rw [mkVec_leaves]
            intro l hl'
            obtain ⟨x, hx, hl'⟩ := List.mem_flatMap.1 hl'
            obtain ⟨k, hk⟩ := List.getElem?_of_mem hx
            obtain ⟨_, _, _, h5, _⟩ := each k x hk
            exact h5 l hl'
          · rw [mkVec_leaves]
            intro l hl'
            obtain ⟨x, hx, hl'⟩ := List.mem_flatMap.1 hl'
            obtain ⟨k, hk⟩ := List.getElem?_of_mem hx
            obtain ⟨i, h3, _, _, h6⟩ := each k x hk
            exact h6 (down h i (List.mem_of_getElem? h3)) l hl'

/-! ## The claim -/

theorem World.emit_places {U : Pool} {st : List JThing} {made : List JOp} {w w1 w2 : World} {A : AHeap}
    {j k : Nat} {module_ : Bool} (I : w.Inv A st) (L : w.Labels made) (W : w.Within U) (hl : w.Lined)
    (hst : ∀ o ∈ w.log, Spec.Op.StableMap o) (hr : ∀ op ∈ made, Spec.JOp.Exact op)
    (hmk : ∀ op ∈ made, Spec.JOp.makes op = true) (hu : Unreplaced st true (.obj j))
    (e : (JOp.sourceAndMap j true module_).run w = .ok (.pair k, w1)) (e2 : World.Lasts k w1 w2) :
    ∃ m, JPlaces st made (.obj j) m ∧ ShowsPlaces w2 k m := by
  simp only [JOp.run] at e
  unfold World.emit at e
  split at e
  · cases e
  rename_i o ho
  split at e
  · cases e
  simp only [if_true, Except.bind_ok_iff] at e
  obtain ⟨⟨a, w3⟩, h1, h2⟩ := e
  dsimp only at h2
  split at h2
  · rename_i n
    have hw := W.call (op := .node o.ptr true module_) trivial
    have hln := hl.call (op := .node o.ptr true module_) trivial
    rw [h1] at hw hln
    obtain ⟨g1, g2, g3, g4⟩ := hw
    obtain ⟨l1, l2, -⟩ := hln
    dsimp only at g1 g2 g3 g4 l1 l2
    obtain ⟨h', hn⟩ : ∃ h', apiNode w.heap o.ptr true module_ = .ok (n, h') := by
      simp only [World.call, Op.run] at h1
      cases hn : apiNode w.heap o.ptr true module_ with
      | error e => rw [hn] at h1; cases h1
      | ok p => rw [hn] at h1; simp only [Except.map] at h1; cases h1; exact ⟨_, rfl⟩
    obtain ⟨t, u, ht⟩ := (api_node_iff (stable_of_ops I.log hst) I.abs _ _ _ _).1 ⟨h', hn⟩
    have hit : Tree.itemNode true module_ t = .ok n := by
      cases t <;> first | exact ht | cases ht
    obtain ⟨k1, k2, -⟩ := JPlaces.of_unfolds I L
      hr hmk u (.obj j)
      (tr_obj ho) hu _ hit
    cases h2
    refine ⟨_, k1, ?_⟩
    have hin : n.In (hasDom w.strs) := SmNode.In.mono (dom_sub_has _) g2
    have grown : ∃ x, w2.strs.array = w.strs.array ++ x := by
      have := e2.array List.getElem?_concat_length
      rwa [← g3]
    rw [← placed_mono grown hin.marks_has]
    refine shows_of_tells (hin.mono (hasDom_grow grown)) (fun l hm o ho =>
      ⟨fun e => (by rw [k2 l hm e] at ho; cases ho), SmNode.Lined.leaves l2 l hm o ho⟩) fun r hr f => ?_
    exact e2 _ (Tells.lasting true _ _ f) _ List.getElem?_concat_length (node_tells hr f _)
  · cases h2

/-- C63: the maps given are well-formed ordinary objects, and no `ReplaceSource` is in the object. The
columns of `OriginalSource`s are the counted ones, which are those of the starts of segments under the
conditions of `ownPlaces_start` (beyond it false, `C26_not_general`). The pair is read at any later time,
provided it was not given to a `SourceMapSource` or assigned to (C54, C55). Missing: maps that repeat
entries or positions (false, `C32_not_general`, `C17_not_general`), maps that were emitted before (C66), and
`ReplaceSource`s (false, `C53_not_general`). -/
theorem C63_partial (ops more : List JOp) (w w1 w2 : World) (j k : Nat) (module_ : Bool)
    (r : World.run ops = .ok w) (hp : ∀ op ∈ ops, op.Proper) (hf : ∀ op ∈ ops, Spec.JOp.FewLines op)
    (hr : ∀ op ∈ ops, Spec.JOp.Exact op) (hu : Unreplaced (jthings ops) true (.obj j))
    (e : (JOp.sourceAndMap j true module_).run w = .ok (.pair k, w1)) (e2 : w1.runFrom more = .ok w2)
    (hg : ∀ op ∈ more, ¬ op.gives k) (hset : ∀ a, .set k a ∉ more) :
    ∃ m, JPlaces (jthings ops) (jmade ops) (.obj j) m ∧ ShowsPlaces w2 k m := by
  obtain ⟨A, I⟩ := World.run_inv hp r
  have L := World.run_labels hp r
  have W := World.run_within ops
  rw [r] at W
  have W : w.Within (supplied ops) := W
  have hl := World.run_lined hf r
  obtain ⟨-, hlog⟩ := World.run_log r
  have hst : ∀ o ∈ w.log, Spec.Op.StableMap o := by
    intro o ho
    obtain ⟨op, hop, hof⟩ := hlog o ho
    cases o <;> try trivial
    obtain ⟨-, n, m, o', i, rfl, -, h1⟩ := hof
    obtain ⟨⟨ss, cs, ns, mp, rfl, -⟩, -⟩ := hr _ hop
    obtain ⟨-, d, hd, -⟩ := h1 ss cs ns mp rfl
    exact .inl (by rw [hd]; rfl)
  exact World.emit_places I L W hl hst (fun op h => hr op (List.mem_filter.1 h).1)
    (fun op h => (List.mem_filter.1 h).2) hu e (.of_run e2 hg hset)

/-! ## Objects without empty strings -/

/-- Statements that make objects that wrap no other. -/
def LeafOp : JOp → Prop
  | .newRaw _ | .newOriginal .. | .newL2l .. | .newSms .. => True
  | _ => False

theorem JPlaces.unique {st : List JThing} {made : List JOp} (T : Together made st) {src : JSrc}
    {m m' : PlacedMarks} (h : JPlaces st made src m) :
    Unreplaced st false src → JPlaces st made src m' → m' = m := by
  have noPre : ∀ {j : Nat} {p : List Char} {c : JSrc} {op : JOp}, made[j]? = some op →
      st[j]? = some (.prefixed p c) → ¬ LeafOp op := by
    intro j p c op h1 hx h
    have := T.each j _ _ h1 hx
    cases op <;> first | exact this | exact h
  have noJoin : ∀ {j : Nat} {items : List JSrc} {op : JOp}, made[j]? = some op → st[j]? = some (.joined items) →
      ¬ LeafOp op := by
    intro j items op h1 hx h
    have := T.each j _ _ h1 hx
    cases op <;> first | exact this | exact h
  induction h generalizing m' with
  | str s => intro _ h'; cases h'; rfl
  | @prefixed j p c m m1 hx hc hpre hex ih =>
    intro hu h'
    have hu : Unreplaced st false c := by
      cases hu with
      | leaf h => rw [hx] at h; cases h
      | prefixed h h' => rw [hx] at h; cases h; exact h'
      | joined h => rw [hx] at h; cases h
    cases h' with
    | raw h' => exact (noPre h' hx trivial).elim
    | original h' => exact (noPre h' hx trivial).elim
    | l2l h' => exact (noPre h' hx trivial).elim
    | sms h' => exact (noPre h' hx trivial).elim
    | inner h' => exact (noPre h' hx trivial).elim
    | prefixed hx' hc' _ hex' =>
      rw [hx] at hx'; cases hx'
      rw [hex hu, hex' hu, ih hu hc']
    | joined h' => rw [hx] at h'; cases h'
  | @joined j its ms hx hl hk ih =>
    intro hu h'
    have hu : ∀ i ∈ its, Unreplaced st false i := by
      cases hu with
      | leaf h => rw [hx] at h; cases h
      | prefixed h h' => rw [hx] at h; cases h
      | joined h h' => rw [hx] at h; cases h; exact h'
    cases h' with
    | raw h' => exact (noJoin h' hx trivial).elim
    | original h' => exact (noJoin h' hx trivial).elim
    | l2l h' => exact (noJoin h' hx trivial).elim
    | sms h' => exact (noJoin h' hx trivial).elim
    | inner h' => exact (noJoin h' hx trivial).elim
    | prefixed h' => rw [hx] at h'; cases h'
    | @joined _ its' ms' hx' hl' hk' =>
      rw [hx] at hx'; cases hx'
      congr 1
      apply List.ext_getElem?
      intro k
      by_cases hlt : k < its.length
      · have e1 : ms[k]? = some (ms[k]'(by omega)) := List.getElem?_eq_getElem (by omega)
        have e2 : ms'[k]? = some (ms'[k]'(by omega)) := List.getElem?_eq_getElem (by omega)
        have e3 : its[k]? = some its[k] := List.getElem?_eq_getElem hlt
        rw [e1, e2, ih k _ _ e3 e1 (hu _ (List.getElem_mem _)) (hk' k _ _ e3 e2)]
      · rw [List.getElem?_eq_none (by omega), List.getElem?_eq_none (by omega)]
  | raw hx =>
    intro _ h'
    cases h' with
    | prefixed h' => exact (noPre hx h' trivial).elim
    | joined h' => exact (noJoin hx h' trivial).elim
    | raw h' => rw [hx] at h'; cases h'; rfl
    | original h' => rw [hx] at h'; cases h'
    | l2l h' => rw [hx] at h'; cases h'
    | sms h' => rw [hx] at h'; cases h'
    | inner h' => rw [hx] at h'; cases h'
  | original hx =>
    intro _ h'
    cases h' with
    | prefixed h' => exact (noPre hx h' trivial).elim
    | joined h' => exact (noJoin hx h' trivial).elim
    | raw h' => rw [hx] at h'; cases h'
    | original h' => rw [hx] at h'; cases h'; rfl
    | l2l h' => rw [hx] at h'; cases h'
    | sms h' => rw [hx] at h'; cases h'
    | inner h' => rw [hx] at h'; cases h'
  | l2l hx =>
    intro _ h'
    cases h' with
    | prefixed h' => exact (noPre hx h' trivial).elim
    | joined h' => exact (noJoin hx h' trivial).elim
    | raw h' => rw [hx] at h'; cases h'
    | original h' => rw [hx] at h'; cases h'
    | l2l h' => rw [hx] at h'; cases h'; rfl
    | sms h' => rw [hx] at h'; cases h'
    | inner h' => rw [hx] at h'; cases h'
  | sms hx hp =>
    intro _ h'
    cases h' with
    | prefixed h' => exact (noPre hx h' trivial).elim
    | joined h' => exact (noJoin hx h' trivial).elim
    | raw h' => rw [hx] at h'; cases h'
    | original h' => rw [hx] at h'; cases h'
    | l2l h' => rw [hx] at h'; cases h'
    | sms h' hp' => rw [hx] at h'; cases h'; rw [hp] at hp'; cases hp'; rfl
    | inner h' => rw [hx] at h'; cases h'
  | inner hx hp hq =>
    intro _ h'
    cases h' with
    | prefixed h' => exact (noPre hx h' trivial).elim
    | joined h' => exact (noJoin hx h' trivial).elim
    | raw h' => rw [hx] at h'; cases h'
    | original h' => rw [hx] at h'; cases h'
    | l2l h' => rw [hx] at h'; cases h'
    | sms h' => rw [hx] at h'; cases h'
    | inner h' hp' hq' =>
      rw [hx] at h'; cases h'; rw [hp] at hp'; cases hp'; rw [hq] at hq'; cases hq'; rfl

/-- C63 for objects without empty strings put together: the statements say exactly one thing (`m`), and the
map says it. -/
theorem C63_exact_partial (ops more : List JOp) (w w1 w2 : World) (j k : Nat) (module_ : Bool) (m : PlacedMarks)
    (r : World.run ops = .ok w) (hp : ∀ op ∈ ops, op.Proper) (hf : ∀ op ∈ ops, Spec.JOp.FewLines op)
    (hr : ∀ op ∈ ops, Spec.JOp.Exact op) (hu : Unreplaced (jthings ops) false (.obj j))
    (hm : JPlaces (jthings ops) (jmade ops) (.obj j) m)
    (e : (JOp.sourceAndMap j true module_).run w = .ok (.pair k, w1)) (e2 : w1.runFrom more = .ok w2)
    (hg : ∀ op ∈ more, ¬ op.gives k) (hset : ∀ a, .set k a ∉ more) : ShowsPlaces w2 k m := by
  obtain ⟨m', h1, h2⟩ := C63_partial ops more w w1 w2 j k module_ r hp hf hr hu.mono e e2 hg hset
  have T : Together (jmade ops) (jthings ops) := by
    exact together ops (made := []) (st := []) ⟨rfl, fun j op x h => by simp at h⟩
  rw [JPlaces.unique T hm hu h1] at h2
  exact h2


/-! Non-trivial case: all kinds of objects; an inner map that says something of one of two places. -/

/-- The program. -/
def c63Program : List JOp :=
  [.newOriginal "a;b {\n  c }\n\n".toList "a.js".toList, .newL2l "c\nd\n".toList "c.js".toList "C\nD".toList,
   .newSms "pq\nr\n".toList "g.js".toList (.plain [some "g.js".toList, some "h.js".toList] []
     [some "n".toList, some "k".toList] "AAAAA,CCEAA;ADAAC".toList) none
     (some (.plain [some "i.js".toList, some "a.js".toList] [] [some "n".toList, some "z".toList] "ACCEA".toList)),
   .newSms "s\n".toList "s.js".toList (.plain [some "h.js".toList] [] [] "AACA".toList) none none,
   .newConcat [.str "x\n".toList, .obj 0, .obj 1, .obj 2], .newPrefix "> ".toList (.obj 4),
   .newConcat [.obj 5, .obj 3]]

/-- A text from one place. -/
def c63From (s : String) (file : String) (l c : Nat) (name : Option String) : PlacedMarks :=
  s.toList.map fun x => (x, some ⟨some file.toList, l, c, name.map fun n => some n.toList⟩)

/-- What it says of its last object. -/
def c63Marks : PlacedMarks :=
  ("> x\n".toList.map fun c => (c, none)) ++ c63From "> a;" "a.js" 1 0 none ++ c63From "b {\n" "a.js" 1 2 none ++
  c63From ">   c }\n" "a.js" 2 0 none ++ ("> \n".toList.map fun c => (c, none)) ++
  c63From "> c\n" "c.js" 1 0 none ++ c63From "> d\n" "c.js" 2 0 none ++
  c63From "> p" "a.js" 2 2 (some "n") ++ c63From "q\n" "h.js" 3 0 (some "n") ++
  c63From "> r\n" "g.js" 3 0 (some "k") ++ c63From "s\n" "h.js" 2 0 none

example : (∀ op ∈ c63Program, op.Proper) ∧ (∀ op ∈ c63Program, Spec.JOp.FewLines op) ∧
    ∀ op ∈ c63Program, Spec.JOp.Exact op := by
  refine ⟨?_, ?_, ?_⟩
  · simp [c63Program, JOp.Proper]
  · simp only [c63Program, List.forall_mem_cons, Spec.JOp.FewLines]
    unfold Spec.FewLines
    exact ⟨by decide, by decide, by decide, by decide, trivial, trivial, trivial, by simp⟩
  · intro op h
    simp only [c63Program, List.mem_cons, List.not_mem_nil, or_false] at h
    rcases h with rfl | rfl | rfl | rfl | rfl | rfl | rfl
    · trivial
    · trivial
    · refine ⟨⟨_, _, _, _, rfl, [⟨1, 0, some ⟨0, 1, 0, some 0⟩⟩, ⟨1, 1, some ⟨1, 3, 0, some 0⟩⟩, ⟨2, 0, some ⟨0, 3, 0, some 1⟩⟩],
        by decide +kernel, by simp [Point.Small], by simp [Point.Lt], by decide +kernel⟩, ?_⟩
      intro i hi
      cases hi
      exact ⟨_, _, _, _, rfl, [⟨1, 0, some ⟨1, 2, 2, some 0⟩⟩],
        by decide +kernel, by simp [Point.Small], by simp [Point.Lt], by decide +kernel⟩
    · exact ⟨⟨_, _, _, _, rfl, [⟨1, 0, some ⟨0, 2, 0, none⟩⟩],
        by decide +kernel, by simp [Point.Small], by simp [Point.Lt], by decide +kernel⟩,
        fun i hi => by cases hi⟩
    all_goals trivial
example : Unreplaced (jthings c63Program) false (.obj 6) := by
  refine .joined (items := [.obj 5, .obj 3]) (by decide +kernel) ?_
  intro i hi
  simp only [List.mem_cons, List.not_mem_nil, or_false] at hi
  rcases hi with rfl | rfl
  · refine .prefixed (p := "> ".toList) (c := .obj 4) (by decide +kernel) ?_
    refine .joined (items := [.str "x\n".toList, .obj 0, .obj 1, .obj 2]) (by decide +kernel) ?_
    intro i hi
    simp only [List.mem_cons, List.not_mem_nil, or_false] at hi
    rcases hi with rfl | rfl | rfl | rfl
    · exact .str _ (.inr (by decide))
    all_goals exact .leaf rfl
  · exact .leaf rfl
example : ((World.run (c63Program ++ [.sourceAndMap 6 true true])).toOption.map fun w =>
    [JField.source, .sources, .names, .mappings].map fun f => ((JOp.get 0 f).run w).toOption.map Prod.fst) =
    some [some (.field (.text "> x\n> a;b {\n>   c }\n> \n> c\n> d\n> pq\n> r\ns\n".toList)),
      some (.field (.list [some "a.js".toList, some "c.js".toList, some "h.js".toList, some "g.js".toList])),
      some (.field (.list [some "n".toList, some "k".toList])),
      some (.field (.text ";AAAA,IAAE;AACF;;ACDA;AACA;ADAEA,GECFA;ACAAC;ADDA".toList))] := by decide +kernel

/-- What it says of the object in front of which the prefix is put. -/
def c63Inner : PlacedMarks :=
  [("x\n".toList.map fun c => (c, none)), ownPlaces (some "a.js".toList) (1, 0) (segments "a;b {\n  c }\n\n".toList),
   placedBy (fun l _ => some ⟨some "c.js".toList, l, 0, none⟩) (1, 0) "c\nd\n".toList,
   c63From "p" "a.js" 2 2 (some "n") ++ c63From "q\n" "h.js" 3 0 (some "n") ++
     c63From "r\n" "g.js" 3 0 (some "k")].flatten

set_option synthInstance.maxSize 1000 in
example : JPlaces (jthings c63Program) (jmade c63Program) (.obj 4) c63Inner := by
  refine .joined (items := [.str "x\n".toList, .obj 0, .obj 1, .obj 2]) (by decide +kernel) rfl ?_
  have h2 : JPlaces (jthings c63Program) (jmade c63Program) (.obj 2)
      (c63From "p" "a.js" 2 2 (some "n") ++ c63From "q\n" "h.js" 3 0 (some "n") ++ c63From "r\n" "g.js" 3 0 (some "k")) := by
    have e : c63From "p" "a.js" 2 2 (some "n") ++ c63From "q\n" "h.js" 3 0 (some "n") ++
        c63From "r\n" "g.js" 3 0 (some "k") =
      placedBy (fun l c => (told [some "g.js".toList, some "h.js".toList] [some "n".toList, some "k".toList]
        [⟨1, 0, some ⟨0, 1, 0, some 0⟩⟩, ⟨1, 1, some ⟨1, 3, 0, some 0⟩⟩, ⟨2, 0, some ⟨0, 3, 0, some 1⟩⟩] l c).map
        (through (some "g.js".toList) (told [some "i.js".toList, some "a.js".toList] [some "n".toList, some "z".toList]
          [⟨1, 0, some ⟨1, 2, 2, some 0⟩⟩]))) (1, 0) "pq\nr\n".toList := by decide +kernel
    rw [e]
    exact .inner rfl (by decide +kernel) (by decide +kernel)
  intro k i m hi hm
  match k, hi, hm with
  | 0, hi, hm => cases hi; cases hm; exact .str _
  | 1, hi, hm => cases hi; cases hm; exact .original rfl
  | 2, hi, hm => cases hi; cases hm; exact .l2l rfl
  | 3, hi, hm => cases hi; cases hm; exact h2
  | k + 4, hi, hm => simp at hi
set_option synthInstance.maxSize 1000 in
example : c63Marks = indentP "> ".toList c63Inner ++ c63From "s\n" "h.js" 2 0 none := by decide +kernel

/-! Characters of two bytes and carriage returns inside a line. -/

example : ((World.run [.newOriginal "à;b\r \rc;\n d".toList "a.js".toList, .newConcat [.str "x".toList, .obj 0],
      .sourceAndMap 1 true true]).toOption.map fun w =>
    [JField.source, .mappings].map fun f => ((JOp.get 0 f).run w).toOption.map Prod.fst) =
    some [some (.field (.text "xà;b\r \rc;\n d".toList)), some (.field (.text "CAAA,EAAG,E,EAAE;AACL".toList))] := by
  decide +kernel
set_option synthInstance.maxSize 1000 in
example : ownPlaces (some "a.js".toList) (1, 0) (segments "à;b\r \rc;\n d".toList) =
    c63From "à;" "a.js" 1 0 none ++ c63From "b\r" "a.js" 1 3 none ++ (" \r".toList.map fun c => (c, none)) ++
    c63From "c;\n" "a.js" 1 5 none ++ c63From " d" "a.js" 2 0 none := by decide +kernel

end WS
