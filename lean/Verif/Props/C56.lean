import Verif.Proofs.JsList
import Verif.Props.C14
import Verif.Props.C20
import Verif.Props.C30
import Verif.Props.C32
/-!
# C56: what the map of a list-map program says

Claim: `toStringWithSourceMap()` of a list map made by a program gives the text the program put into it,
and its map attributes every character to the file and line the program's statements say.
-/

namespace WS
open Spec

/-! ## Spec: what the statements of a program say -/

/-- A text with, for every character, the file (`none` is `null`, no file) and the line it comes from. -/
abbrev Spec.NamedMarks := List (Char × Option (JVal × Nat))

/-- A text without origin. -/
def Spec.plainly (s : List Char) : NamedMarks := s.map fun c => (c, none)

/-- A text from a file: its first line is line `n`, the next lines follow (`step = 1`) or are the same
one (`step = 0`). -/
def Spec.fromFile (file : JVal) (step : Nat) : Nat → List Char → NamedMarks
  | _, [] => []
  | n, c :: rest => (c, some (file, n)) :: fromFile file step (if c = '\n' then n + step else n) rest

/-- What a line map can show: text without origin goes with the attributed text before it on its line. -/
def Spec.seen : Option (JVal × Nat) → NamedMarks → NamedMarks
  | _, [] => []
  | cur, (c, o) :: rest => (c, o.or cur) :: seen (if c = '\n' then none else o.or cur) rest

/-- A list-map object: its characters, and whether no single-line node was given several lines. -/
structure Spec.LDesc where
  marks : NamedMarks
  tidy : Bool
  deriving DecidableEq

/-- One after the other. -/
def Spec.LDesc.then (a b : LDesc) : LDesc := ⟨a.marks ++ b.marks, a.tidy && b.tidy⟩

/-- What is put into a list map: a string, from the first line of the file if there is one, or the
content of an object. -/
def Spec.argument (ds : List (Option LDesc)) (source : Option Str) : LArg → Option LDesc
  | .str s => some ⟨match truthy source with
      | none => plainly s
      | some f => fromFile (some f) 1 1 s, true⟩
  | .obj i => ds[i]?.join

/-- A text with a map: lines go with the first origin the map gives on them, blank lines without one
follow an attributed line; nothing is said if the map is malformed or too large. -/
def Spec.mapped (code : Str) (sources names : List JVal) (mappings : Str) : Option LDesc :=
  match points (idTable sources.length) (idTable names.length) mappings with
  | none => none
  | some ps =>
    if sources.length ≤ 4294967296 ∧
        (ps.all fun p => (p.origin.map fun o => decide (o.line < 4294967296)).getD true) = true then
      some ⟨(follow isBlank (lineFirst ps) 1 none (splitKeep '\n' code)).map fun x =>
        (x.1, x.2.map fun y => ((sources[y.1.toNat]?).join, y.2)), true⟩
    else none

/-- What a statement says of the objects; `none`: nothing. Nothing is said of strings put in front, of
list maps of other objects, of rewritten code but for the identity, and of that only if no single-line
node was given several lines. -/
def Spec.describe (ds : List (Option LDesc)) : LOp → List (Option LDesc)
  | .newCode s => ds ++ [some ⟨plainly s, true⟩]
  | .newSource s source _ line => ds ++ [some ⟨fromFile (truthy source) 1 (startLine line) s, true⟩]
  | .newSingle s source _ line =>
    ds ++ [some ⟨fromFile (truthy source) 0 (startLine line) s, decide ('\n' ∉ s.dropLast)⟩]
  | .newEmpty => ds ++ [some ⟨[], true⟩]
  | .newMap a source _ => ds ++ [argument ds source a]
  | .newArray _ => ds ++ [none]
  | .fromString code sources _ names mappings => ds ++ [mapped code sources names mappings]
  | .listMap _ _ _ => ds ++ [none]
  | .add i a source _ =>
    ds.set i (ds[i]?.join.bind fun d => (argument ds source a).map fun b => d.then b)
  | .prepend i a _ _ =>
    ds.set i (match a with
      | .str _ => none
      | .obj j => ds[i]?.join.bind fun d => ds[j]?.join.map fun b => b.then d)
  | .mapCode i f =>
    ds.set i none ++ [match f with
      | .identical => ds[i]?.join.bind fun d => if d.tidy then some ⟨d.marks, false⟩ else none
      | _ => none]
  | _ => ds

/-- What a program says of its objects. -/
def Spec.descriptions (ops : List LOp) : List (Option LDesc) := ops.foldl describe []

/-! ## Renaming -/

/-- The string of an index, `null` for a negative one. -/
def StrTable.name (t : StrTable JVal) (i : Int) : JVal := ((t.at i).getD none).join

/-- The index is one. -/
def StrTable.Has (t : StrTable JVal) (i : Int) : Prop := ∃ v, t.at i = some v

theorem StrTable.at_mono {t t' : StrTable JVal} (g : ∃ r, t'.array = t.array ++ r) {i : Int} {v : Option JVal}
    (h : t.at i = some v) : t'.at i = some v := by
  obtain ⟨r, hr⟩ := g
  unfold StrTable.at at h ⊢
  split
  · rename_i hi; rw [if_pos hi] at h; exact h
  · rename_i hi
    rw [if_neg hi] at h
    cases hx : t.array[i.toNat]? with
    | none => rw [hx] at h; cases h
    | some x => rw [hx] at h; rw [hr, getElem?_append_some hx]; exact h

theorem StrTable.Has.mono {t t' : StrTable JVal} (g : ∃ r, t'.array = t.array ++ r) {i : Int} (h : t.Has i) :
    t'.Has i ∧ t'.name i = t.name i := by
  obtain ⟨v, hv⟩ := h
  have := StrTable.at_mono g hv
  exact ⟨⟨v, this⟩, by simp [StrTable.name, this, hv]⟩

theorem StrTable.has_neg (t : StrTable JVal) : t.Has (-1) ∧ t.name (-1) = none := ⟨⟨none, rfl⟩, rfl⟩

theorem StrTable.values_get {t : StrTable JVal} : ∀ {ids : List Int}, (∀ i ∈ ids, t.Has i) →
    t.values ids = some (ids.map t.name)
  | [], _ => rfl
  | i :: ids, h => by
    obtain ⟨v, hv⟩ := h i (by simp)
    have ih := StrTable.values_get (t := t) (ids := ids) (fun j hj => h j (by simp [hj]))
    obtain ⟨vs, h1, h2⟩ := Option.map_eq_some_iff.1 ih
    simp [StrTable.values, StrTable.resolve, hv, h1, StrTable.name]
    simpa [StrTable.name] using h2

theorem StrTable.resolve_length {α : Type} {t : StrTable α} : ∀ {ids : List Int} {l : List (Option α)},
    t.resolve ids = some l → l.length = ids.length
  | [], l, h => by cases h; rfl
  | i :: ids, l, h => by
    simp only [StrTable.resolve] at h
    split at h
    · cases h
    · obtain ⟨r, h1, rfl⟩ := Option.map_eq_some_iff.1 h
      simp [StrTable.resolve_length h1]

theorem StrTable.values_at {t : StrTable JVal} : ∀ {ids : List Int} {l : List JVal}, t.values ids = some l →
    ∀ i : Nat, i < ids.length → t.Has ((ids[i]?).getD 0) ∧ t.name ((ids[i]?).getD 0) = (l[i]?).join
  | [], _, _, i, hi => by cases hi
  | j :: ids, l, h, i, hi => by
    obtain ⟨vs, h1, rfl⟩ := Option.map_eq_some_iff.1 h
    simp only [StrTable.resolve] at h1
    split at h1
    · cases h1
    · rename_i v hv
      obtain ⟨r, h2, rfl⟩ := Option.map_eq_some_iff.1 h1
      cases i with
      | zero => exact ⟨⟨v, hv⟩, by simp [StrTable.name, hv]⟩
      | succ i =>
        have := StrTable.values_at (t := t) (ids := ids) (l := r.map Option.join)
          (by rw [StrTable.values, h2]; rfl) i (by simpa using hi)
        simpa using this

/-- Marks by index stand for marks by name. -/
structure Named (t : StrTable JVal) (ms : LineMarked) (d : NamedMarks) : Prop where
  eq : d = ms.map fun p => (p.1, p.2.map fun x => (t.name x.1, x.2))
  has : ∀ p ∈ ms, ∀ x, p.2 = some x → t.Has x.1

theorem Named.mono {t t' : StrTable JVal} (g : ∃ r, t'.array = t.array ++ r) {ms : LineMarked} {d : NamedMarks}
    (h : Named t ms d) : Named t' ms d := by
  refine ⟨?_, fun p hp x hx => (StrTable.Has.mono g (h.has p hp x hx)).1⟩
  rw [h.eq]
  apply List.map_congr_left
  intro p hp
  cases hx : p.2 with
  | none => rfl
  | some x => simp [(StrTable.Has.mono g (h.has p hp x hx)).2]

theorem Named.append {t : StrTable JVal} {a b : LineMarked} {c d : NamedMarks} (h : Named t a c)
    (h' : Named t b d) : Named t (a ++ b) (c ++ d) :=
  ⟨by rw [h.eq, h'.eq, List.map_append], fun p hp =>
    (List.mem_append.1 hp).elim (h.has p) (h'.has p)⟩

theorem Named.nil {t : StrTable JVal} : Named t [] [] := ⟨rfl, fun p hp => by cases hp⟩

theorem Named.plainly {t : StrTable JVal} (s : Str) : Named t (s.map fun c => (c, none)) (plainly s) :=
  ⟨by simp [Spec.plainly], fun p hp x hx => by
    obtain ⟨c, -, rfl⟩ := List.mem_map.1 hp; cases hx⟩

theorem Named.fromFile {t : StrTable JVal} {i : Int} (h : t.Has i) (step : Nat) : ∀ (s : Str) (n : Nat),
    Named t (linesMarks i step n s) (fromFile (t.name i) step n s)
  | [], _ => .nil
  | c :: s, n => by
    have ih := Named.fromFile h step s (if c = '\n' then n + step else n)
    refine ⟨by rw [linesMarks, Spec.fromFile, List.map_cons, ← ih.eq]; rfl, ?_⟩
    intro p hp x hx
    rw [linesMarks] at hp
    rcases List.mem_cons.1 hp with rfl | hp
    · cases hx; exact h
    · exact ih.has p hp x hx

theorem seen_map (f : Int → JVal) : ∀ (ms : LineMarked) (cur : Option (Int × Nat)),
    seen (cur.map fun x => (f x.1, x.2)) (ms.map fun p => (p.1, p.2.map fun x => (f x.1, x.2))) =
      (Spec.shown cur ms).map fun p => (p.1, p.2.map fun x => (f x.1, x.2))
  | [], _ => rfl
  | (c, o) :: ms, cur => by
    have e : (o.map fun x => (f x.1, x.2)).or (cur.map fun x => (f x.1, x.2)) =
        (o.or cur).map fun x => (f x.1, x.2) := by cases o <;> rfl
    simp only [List.map_cons, seen, Spec.shown, e]
    by_cases hc : c = '\n'
    · simp only [if_pos hc]
      rw [← seen_map f ms none]; rfl
    · simp only [if_neg hc]
      rw [← seen_map f ms (o.or cur)]

theorem shown_has {P : Int → Prop} : ∀ (ms : LineMarked) (cur : Option (Int × Nat)),
    (∀ x, cur = some x → P x.1) → (∀ p ∈ ms, ∀ x, p.2 = some x → P x.1) →
    ∀ p ∈ Spec.shown cur ms, ∀ x, p.2 = some x → P x.1
  | [], _, _, _ => fun p hp => by cases hp
  | (c, o) :: ms, cur, hc, h => by
    have ho : ∀ x, o.or cur = some x → P x.1 := by
      intro x hx
      cases o with
      | none => exact hc x hx
      | some y => cases hx; exact h _ (List.mem_cons_self ..) _ rfl
    intro p hp
    rw [Spec.shown] at hp
    rcases List.mem_cons.1 hp with rfl | hp
    · exact ho
    · refine shown_has ms _ ?_ (fun q hq => h q (by simp [hq])) p hp
      intro x hx
      split at hx
      · cases hx
      · exact ho x hx

/-! ## Indices into another array -/

/-- The source of an origin by another array. -/
def renameOrigin (ss : List Int) (o : Origin) : Origin := { o with source := (ss[o.source.toNat]?).getD 0 }

/-- The same of a point. -/
def renamePoint (ss : List Int) (p : Point) : Point := { p with origin := p.origin.map (renameOrigin ss) }

theorem at?_rename (ss : List Int) (i : Int) :
    at? ss i = (at? (idTable ss.length) i).map fun j => (ss[j.toNat]?).getD 0 := by
  unfold at?
  split
  · rfl
  · rw [idTable_get]
    split
    · rename_i h
      rw [Option.map_some, Int.toNat_natCast, List.getElem?_eq_getElem h]; rfl
    · rename_i h
      simp [List.getElem?_eq_none (Nat.le_of_not_lt h)]

theorem resolve_rename (ss ns : List Int) (g : Seg) :
    g.resolve ss ns = (g.resolve (idTable ss.length) ns).map (renamePoint ss) := by
  unfold Seg.resolve
  cases nat? g.col with
  | none => rfl
  | some c =>
    cases g.orig with
    | none => rfl
    | some x =>
      obtain ⟨si, ol, oc, ni⟩ := x
      dsimp only
      rw [at?_rename]
      cases at? (idTable ss.length) si with
      | none => rfl
      | some j =>
        cases nat? ol with
        | none => rfl
        | some ol =>
          cases nat? oc with
          | none => rfl
          | some oc =>
            cases ni with
            | none => rfl
            | some ni =>
              dsimp only [Option.map]
              cases at? ns ni <;> rfl

theorem resolveAll_rename (ss ns : List Int) : ∀ gs : List Seg,
    resolveAll ss ns gs = (resolveAll (idTable ss.length) ns gs).map (List.map (renamePoint ss))
  | [] => rfl
  | g :: gs => by
    simp only [resolveAll]
    rw [resolve_rename ss ns g, resolveAll_rename ss ns gs]
    cases g.resolve (idTable ss.length) ns with
    | none => rfl
    | some p => cases resolveAll (idTable ss.length) ns gs <;> rfl

theorem points_rename (ss ns : List Int) (m : Str) :
    points ss ns m = (points (idTable ss.length) ns m).map (List.map (renamePoint ss)) := by
  unfold points
  cases decode m with
  | none => rfl
  | some gs => exact resolveAll_rename ss ns gs

theorem pointAt_rename (ss : List Int) (l c : Nat) : ∀ ps : List Point,
    pointAt (ps.map (renamePoint ss)) l c = (pointAt ps l c).map (renamePoint ss)
  | [] => rfl
  | p :: ps => by
    simp only [List.map_cons, pointAt]
    rw [pointAt_rename ss l c ps]
    cases pointAt ps l c with
    | some q => rfl
    | none =>
      simp only [Option.map_none]
      have : (renamePoint ss p).line = p.line ∧ (renamePoint ss p).col = p.col := ⟨rfl, rfl⟩
      rw [this.1, this.2]
      split <;> rfl

theorem lookup_rename (ss : List Int) (l c : Nat) (ps : List Point) :
    lookup (ps.map (renamePoint ss)) l c = (lookup ps l c).map (renameOrigin ss) := by
  unfold lookup
  rw [pointAt_rename]
  cases pointAt ps l c with
  | none => rfl
  | some p => rfl

theorem resolve_inRange {n : Nat} {ns : List Int} {g : Seg} {p : Point}
    (h : g.resolve (idTable n) ns = some p) : ∀ o, p.origin = some o → o.source.toNat < n := by
  unfold Seg.resolve at h
  cases hc : nat? g.col with
  | none => rw [hc] at h; cases h
  | some c =>
    cases hg : g.orig with
    | none => rw [hc, hg] at h; cases h; intro o ho; cases ho
    | some x =>
      obtain ⟨si, ol, oc, ni⟩ := x
      rw [hc, hg] at h
      dsimp only at h
      cases ha : at? (idTable n) si with
      | none => rw [ha] at h; cases h
      | some j =>
        have hj : j.toNat < n := by
          unfold at? at ha
          split at ha
          · cases ha
          · rw [idTable_get] at ha
            split at ha
            · rename_i hlt; cases ha; rw [Int.toNat_natCast]; exact hlt
            · cases ha
        rw [ha] at h
        cases h1 : nat? ol with
        | none => rw [h1] at h; cases h
        | some ol =>
          cases h2 : nat? oc with
          | none => rw [h1, h2] at h; cases h
          | some oc =>
            rw [h1, h2] at h
            dsimp only at h
            cases ni with
            | none => cases h; intro o ho; cases ho; exact hj
            | some ni =>
              dsimp only at h
              cases hn : at? ns ni with
              | none => rw [hn] at h; cases h
              | some nm => rw [hn] at h; cases h; intro o ho; cases ho; exact hj

theorem resolveAll_inRange {n : Nat} {ns : List Int} : ∀ {gs : List Seg} {ps : List Point},
    resolveAll (idTable n) ns gs = some ps → ∀ p ∈ ps, ∀ o, p.origin = some o → o.source.toNat < n
  | [], ps, h => by cases h; intro p hp; cases hp
  | g :: gs, ps, h => by
    simp only [resolveAll] at h
    split at h
    · rename_i p qs h1 h2
      cases h
      intro q hq
      rcases List.mem_cons.1 hq with rfl | hq
      · exact resolve_inRange h1
      · exact resolveAll_inRange h2 q hq
    · cases h

theorem points_inRange {n : Nat} {ns : List Int} {m : Str} {ps : List Point}
    (h : points (idTable n) ns m = some ps) : ∀ p ∈ ps, ∀ o, p.origin = some o → o.source.toNat < n := by
  unfold points at h
  cases hd : decode m with
  | none => rw [hd] at h; cases h
  | some gs => rw [hd] at h; exact resolveAll_inRange h

theorem pointAt_mem : ∀ {ps : List Point} {l c : Nat} {p : Point}, pointAt ps l c = some p → p ∈ ps
  | q :: ps, l, c, p, h => by
    simp only [pointAt] at h
    cases hx : pointAt ps l c with
    | some x => rw [hx] at h; cases h; exact List.mem_cons_of_mem _ (pointAt_mem hx)
    | none =>
      rw [hx] at h
      dsimp only at h
      split at h
      · cases h; exact List.mem_cons_self ..
      · cases h

theorem lookup_inRange {n : Nat} {ns : List Int} {m : Str} {ps : List Point}
    (h : points (idTable n) ns m = some ps) {l c : Nat} {o : Origin} (ho : lookup ps l c = some o) :
    o.source.toNat < n := by
  obtain ⟨p, h1, h2⟩ := Option.bind_eq_some_iff.1 ho
  exact points_inRange h p (pointAt_mem h1) o h2

theorem lineFirst_rename (ss : List Int) (ps : List Point) (i : Nat) :
    lineFirst (ps.map (renamePoint ss)) i =
      (lineFirst ps i).map fun x => ((ss[x.1.toNat]?).getD 0, x.2) := by
  unfold lineFirst
  rw [List.filter_map, List.findSome?_map, Option.map_map]
  have e : (Point.origin ∘ renamePoint ss) = fun p => p.origin.map (renameOrigin ss) := rfl
  have e2 : (fun p : Point => decide (p.line = i)) ∘ renamePoint ss = fun p => decide (p.line = i) := rfl
  rw [e, e2]
  generalize ps.filter (fun p => decide (p.line = i)) = qs
  induction qs with
  | nil => rfl
  | cons q qs ih =>
    simp only [List.findSome?_cons]
    cases q.origin with
    | none => exact ih
    | some o => rfl

theorem follow_rename {α : List Char → Bool} (f : Int → Int) {org : Nat → Option (Int × Nat)} :
    ∀ (ls : List Str) (i : Nat) (prev : Option (Int × Nat)),
    follow α (fun i => (org i).map fun x => (f x.1, x.2)) i (prev.map fun x => (f x.1, x.2)) ls =
      (follow α org i prev ls).map fun p => (p.1, p.2.map fun x => (f x.1, x.2))
  | [], _, _ => rfl
  | l :: ls, i, prev => by
    simp only [follow]
    have e : (((org i).map fun x => (f x.1, x.2)).or
        (if α l = true then prev.map fun x => (f x.1, x.2) else none)) =
        ((org i).or (if α l = true then prev else none)).map fun x => (f x.1, x.2) := by
      cases org i with
      | some x => rfl
      | none => cases α l <;> rfl
    rw [e]
    generalize (org i).or (if α l = true then prev else none) = a
    have e2 : ((a.map fun x => (f x.1, x.2)).map fun x : Int × Nat => (x.1, x.2 + 1)) =
        (a.map fun x : Int × Nat => (x.1, x.2 + 1)).map fun x => (f x.1, x.2) := by cases a <;> rfl
    rw [e2, follow_rename f ls (i + 1)]
    simp

theorem follow_has {P : Int → Prop} {α : List Char → Bool} {org : Nat → Option (Int × Nat)}
    (ho : ∀ i x, org i = some x → P x.1) : ∀ (ls : List Str) (i : Nat) (prev : Option (Int × Nat)),
    (∀ x, prev = some x → P x.1) → ∀ p ∈ follow α org i prev ls, ∀ x, p.2 = some x → P x.1
  | [], _, _, _ => fun p hp => by cases hp
  | l :: ls, i, prev, hp => by
    simp only [follow]
    have ha : ∀ x, (org i).or (if α l = true then prev else none) = some x → P x.1 := by
      intro x hx
      cases hi : org i with
      | some y => rw [hi] at hx; cases hx; exact ho i _ hi
      | none =>
        rw [hi] at hx
        split at hx
        · exact hp x hx
        · cases hx
    intro p hm
    rcases List.mem_append.1 hm with hm | hm
    · obtain ⟨c, -, rfl⟩ := List.mem_map.1 hm; exact ha
    · refine follow_has ho ls (i + 1) _ ?_ p hm
      intro x hx
      obtain ⟨y, hy, rfl⟩ := Option.map_eq_some_iff.1 hx
      exact ha y hy

/-! ## The invariant -/

/-- A list map is as described. -/
structure SlmGood (t : StrTable JVal) (m : Slm) (d : LDesc) : Prop where
  built : AllBuilt m
  lines : ∀ n ∈ m, n.Lines1 ∧ ∀ s, n ≠ .str s
  has : SlmHas (fun s _ => t.Has (s.getD (-1))) m
  tidy : d.tidy = true → ∀ n ∈ m, ∀ x, n = .single x → '\n' ∉ x.code.dropLast
  named : Named t (piecesMarks (m.map LNode.piece)) d.marks

/-- The list map an object is, or is when it is put into one. -/
def LVal.slm : LVal → Option Slm
  | .dead => none
  | .broken => none
  | .code s => some [.code s]
  | .source n => some [.source n]
  | .single n => some [.single n]
  | .map m => some m

/-- Every object that can be used is as described. -/
structure Fits (w : LWorld) (ds : List (Option LDesc)) : Prop where
  strs : w.base.strs.Ok
  length : w.lists.length = ds.length
  good : ∀ (i : Nat) (v : LVal) (d : LDesc), w.lists[i]? = some v → ds[i]? = some (some d) → ∀ m, v.slm = some m →
    SlmGood w.base.strs m d

theorem SlmGood.mono {t t' : StrTable JVal} (g : ∃ r, t'.array = t.array ++ r) {m : Slm} {d : LDesc}
    (h : SlmGood t m d) : SlmGood t' m d := by
  refine ⟨h.built, h.lines, ?_, h.tidy, h.named.mono g⟩
  intro n hn
  have := h.has n hn
  cases n with
  | source x => exact (StrTable.Has.mono g this).1
  | single x => exact (StrTable.Has.mono g this).1
  | _ => trivial

theorem SlmGood.append {t : StrTable JVal} {m m' : Slm} {d d' : LDesc} (h : SlmGood t m d)
    (h' : SlmGood t m' d') : SlmGood t (m ++ m') (d.then d') := by
  refine ⟨fun n hn => (List.mem_append.1 hn).elim (h.built n) (h'.built n),
    fun n hn => (List.mem_append.1 hn).elim (h.lines n) (h'.lines n), h.has.append h'.has, ?_, ?_⟩
  · intro ht
    simp only [LDesc.then, Bool.and_eq_true] at ht
    exact fun n hn => (List.mem_append.1 hn).elim (h.tidy ht.1 n) (h'.tidy ht.2 n)
  · rw [List.map_append, piecesMarks_append]
    exact h.named.append h'.named

theorem SlmGood.nil {t : StrTable JVal} {b : Bool} : SlmGood t [] ⟨[], b⟩ :=
  ⟨fun n hn => (by cases hn), fun n hn => (by cases hn), SlmHas.nil, fun _ n hn => (by cases hn), .nil⟩

theorem SlmGood.code {t : StrTable JVal} (s : Str) : SlmGood t [.code s] ⟨plainly s, true⟩ := by
  refine ⟨?_, ?_, SlmHas.one trivial, ?_, ?_⟩
  · intro n hn; rw [List.mem_singleton.1 hn]; exact .code _
  · intro n hn; rw [List.mem_singleton.1 hn]; exact ⟨trivial, fun _ h => by cases h⟩
  · intro _ n hn x hx; rw [List.mem_singleton.1 hn] at hx; cases hx
  · simpa [piecesMarks, LNode.piece, Piece.marks] using Named.plainly s

theorem SlmGood.source {t : StrTable JVal} (s : Str) (src orig : Option Int) {line : Nat} (hl : 1 ≤ line)
    (h : t.Has (src.getD (-1))) :
    SlmGood t [.source (LSource.new s src orig line)] ⟨fromFile (t.name (src.getD (-1))) 1 line s, true⟩ := by
  refine ⟨?_, ?_, SlmHas.one h, ?_, ?_⟩
  · intro n hn; rw [List.mem_singleton.1 hn]; exact .source ..
  · intro n hn; rw [List.mem_singleton.1 hn]; exact ⟨hl, fun _ h => by cases h⟩
  · intro _ n hn x hx; rw [List.mem_singleton.1 hn] at hx; cases hx
  · simpa [piecesMarks, LNode.piece, Piece.marks, LSource.new] using Named.fromFile h 1 s line

theorem SlmGood.single {t : StrTable JVal} (s : Str) (src orig : Option Int) {line : Nat} (hl : 1 ≤ line)
    (h : t.Has (src.getD (-1))) :
    SlmGood t [.single (LSingle.new s src orig line)]
      ⟨fromFile (t.name (src.getD (-1))) 0 line s, decide ('\n' ∉ s.dropLast)⟩ := by
  refine ⟨?_, ?_, SlmHas.one h, ?_, ?_⟩
  · intro n hn; rw [List.mem_singleton.1 hn]; exact .single ..
  · intro n hn; rw [List.mem_singleton.1 hn]; exact ⟨hl, fun _ h => by cases h⟩
  · intro ht n hn x hx; rw [List.mem_singleton.1 hn] at hx; cases hx
    exact of_decide_eq_true ht
  · simpa [piecesMarks, LNode.piece, Piece.marks, LSingle.new] using Named.fromFile h 0 s line

theorem SlmGood.neat {t : StrTable JVal} {m : Slm} {d : LDesc} (h : SlmGood t m d) (ht : d.tidy = true) :
    ∀ n ∈ m, n.Neat := by
  intro n hn
  have h1 := C42_lines (h.built n hn)
  have h2 := C42_ends_partial (h.built n hn)
  cases n with
  | str s => exact absurd rfl ((h.lines _ hn).2 s)
  | source x => exact ⟨h1, h2⟩
  | single x => exact ⟨h1, h2, h.tidy ht _ hn x rfl⟩
  | _ => trivial

theorem SlmGood.ok {t : StrTable JVal} {m : Slm} {d : LDesc} (h : SlmGood t m d) : ∀ n ∈ m, n.Ok := by
  intro n hn
  have h1 := C42_lines (h.built n hn)
  have h2 := h.lines n hn
  cases n with
  | str s => exact absurd rfl (h2.2 s)
  | source x => exact ⟨h1, fun _ => h2.1⟩
  | single x => exact ⟨h1, fun _ => h2.1⟩
  | _ => trivial

theorem startLine_pos (n : Nat) : 1 ≤ startLine n := by unfold startLine; split <;> omega

/-- The string put into the table for a source. -/
theorem LWorld.names_has {w : LWorld} (h : w.base.strs.Ok) (source : Option Str) (original : JVal) :
    (w.names source original).2.2.base.strs.Has ((w.names source original).1.getD (-1)) ∧
    (w.names source original).2.2.base.strs.name ((w.names source original).1.getD (-1)) = truthy source := by
  simp only [LWorld.names]
  cases ht : truthy source with
  | none => exact StrTable.has_neg _
  | some s =>
    dsimp only [Option.getD]
    have h1 : (w.base.intern (some s)).2.strs.at (w.base.intern (some s)).1 = some (some (some s)) := by
      have := StrTable.add_at h (some s)
      show (w.base.strs.add (some s)).2.at ((w.base.strs.add (some s)).1 : Nat) = _
      unfold StrTable.at
      rw [if_neg (by omega), Int.toNat_natCast, this]
    have h2 := StrTable.at_mono (World.internNew_same (w.base.intern (some s)).2 original).strs h1
    exact ⟨⟨_, h2⟩, by rw [StrTable.name, h2]; rfl⟩

theorem SlmGood.congr {t : StrTable JVal} {m m' : Slm} {d : LDesc} (h : SlmGood t m d)
    (hb : AllBuilt m') (hl : ∀ n ∈ m', n.Lines1 ∧ ∀ s, n ≠ .str s)
    (hh : SlmHas (fun s _ => t.Has (s.getD (-1))) m')
    (ht : ∀ n ∈ m', ∀ x, n = .single x → n ∈ m)
    (hm : piecesMarks (m'.map LNode.piece) = piecesMarks (m.map LNode.piece)) : SlmGood t m' d :=
  ⟨hb, hl, hh, fun h' n hn x hx => h.tidy h' n (ht n hn x hx) x hx, by rw [hm]; exact h.named⟩

/-- A string is appended. -/
theorem SlmGood.addStr {t : StrTable JVal} {m : Slm} {d : LDesc} (h : SlmGood t m d) (s : Str)
    (src orig : Option Int) (hs : t.Has (src.getD (-1))) (b : NamedMarks)
    (hb : b = (src.map fun i => fromFile (t.name i) 1 1 s).getD (plainly s)) :
    SlmGood t (slmAddStr m s src orig) (d.then ⟨b, true⟩) := by
  subst hb
  cases src with
  | some i => exact h.append (SlmGood.source s (some i) orig (Nat.le_refl 1) hs)
  | none =>
    have hc := h.append (SlmGood.code s)
    refine hc.congr (slmAddStr_built h.built _ _ _) ?_ (slmAddStr_in h.has hs) ?_ ?_
    · intro n hn
      simp only [slmAddStr, Option.isSome_none, Bool.false_eq_true, if_false] at hn
      split at hn
      · rcases List.mem_append.1 hn with hn | hn
        · exact h.lines n (List.dropLast_subset m hn)
        · rw [List.mem_singleton.1 hn]; exact ⟨trivial, fun _ h => by cases h⟩
      · rcases List.mem_append.1 hn with hn | hn
        · exact h.lines n hn
        · rw [List.mem_singleton.1 hn]; exact ⟨trivial, fun _ h => by cases h⟩
    · intro n hn x hx
      simp only [slmAddStr, Option.isSome_none, Bool.false_eq_true, if_false] at hn
      split at hn
      · rcases List.mem_append.1 hn with hn | hn
        · exact List.mem_append_left _ (List.dropLast_subset m hn)
        · rw [List.mem_singleton.1 hn] at hx; cases hx
      · rcases List.mem_append.1 hn with hn | hn
        · exact List.mem_append_left _ hn
        · rw [List.mem_singleton.1 hn] at hx; cases hx
    · obtain ⟨m', e, hm⟩ := C30_add m s none orig
      cases e
      rw [hm, List.map_append, piecesMarks_append]
      simp [piecesMarks, LNode.piece, Piece.marks]

/-- The identity is applied. -/
theorem SlmGood.identical {t : StrTable JVal} {m : Slm} {d : LDesc} (h : SlmGood t m d) (ht : d.tidy = true) :
    SlmGood t (wasmIdenticalMap m) ⟨d.marks, false⟩ := by
  have hn := h.neat ht
  have hid := C20_identity_partial (fun (_ : Unit) s => (s, ())) (fun _ _ => rfl) () m hn
  refine ⟨slmMapGenerated_built _ _ h.built, ?_, slmMapGenerated_in h.has, (by intro h; cases h), ?_⟩
  · intro n hm
    obtain ⟨_, f2⟩ := flatten_marks m hn
    obtain ⟨h3, _⟩ := mapLoop_identity (f := fun (_ : Unit) s => (s, ())) (fun _ _ => rfl) _ () []
      (by intro n hn; cases hn) f2
    simp only [wasmIdenticalMap, slmMapGenerated] at hm
    rw [List.mem_reverse] at hm
    refine ⟨?_, fun s e => ?_⟩
    · refine built_lines1 _ (m.map LNode.normalized).flatten () [] (by intro k hk; cases hk) ?_ n hm
      intro k hk
      obtain ⟨l, hl, hk⟩ := List.mem_flatten.1 hk
      obtain ⟨x, hx, rfl⟩ := List.mem_map.1 hl
      exact normalized_lines1 (h.lines x hx).1 k hk
    · have := h3 n hm
      rw [e] at this
      exact this
  · show Named t (piecesMarks ((slmMapGenerated _ () m).1.map LNode.piece)) _
    rw [hid]; exact h.named

/-- A map is read. -/
theorem SlmGood.fromString {t : StrTable JVal} {code : Str} {sources names : List JVal} {ss cs : List Int}
    {mappings : Str} {m : Slm} {d : LDesc} (hv : t.values ss = some sources)
    (e : slmFromString code ss cs mappings = .ok m) (hd : mapped code sources names mappings = some d) :
    SlmGood t m d := by
  have hlen : ss.length = sources.length := by
    obtain ⟨vs, h1, rfl⟩ := Option.map_eq_some_iff.1 hv
    rw [List.length_map, StrTable.resolve_length h1]
  have hget : ∀ i : Nat, i < ss.length → t.Has ((ss[i]?).getD 0) ∧
      t.name ((ss[i]?).getD 0) = (sources[i]?).join := StrTable.values_at hv
  simp only [mapped] at hd
  split at hd
  · cases hd
  rename_i ps hps
  split at hd
  case isFalse => cases hd
  rename_i hsize
  simp only [Option.some.injEq] at hd
  subst hd
  have hp2 : points ss (idTable names.length) mappings = some (ps.map (renamePoint ss)) := by
    rw [points_rename, hlen, hps]; rfl
  have hsm : ∀ p ∈ ps.map (renamePoint ss), ∀ o, p.origin = some o → o.line < 4294967296 := by
    intro p hp o ho
    obtain ⟨q, hq, rfl⟩ := List.mem_map.1 hp
    simp only [renamePoint, Option.map_eq_some_iff] at ho
    obtain ⟨o', ho', rfl⟩ := ho
    have := List.all_eq_true.1 hsize.2 q hq
    rw [ho'] at this
    simpa [renameOrigin] using this
  obtain ⟨m', hm, hmarks, hr⟩ := slmFromString_origins code ss cs (idTable names.length) mappings _ hp2
    (by rw [hlen]; exact hsize.1) hsm _ (isLines_splitKeep '\n' code)
  rw [e] at hm; cases hm
  have hor : ∀ i x, lineFirst ps i = some x → x.1.toNat < ss.length := by
    intro i x hx
    unfold lineFirst at hx
    obtain ⟨o, ho, rfl⟩ := Option.map_eq_some_iff.1 hx
    obtain ⟨p, hp, hpo⟩ := List.exists_of_findSome?_eq_some ho
    rw [hlen]
    exact points_inRange hps p (List.mem_filter.1 hp).1 o hpo
  refine ⟨slmFromString_built e, ?_, ?_, ?_, ?_⟩
  · intro n hn
    have := hr n hn
    cases n with
    | code s => exact ⟨trivial, fun _ h => by cases h⟩
    | source x => exact ⟨this, fun _ h => by cases h⟩
    | _ => exact this.elim
  · refine slmFromString_in ?_ e
    intro i
    cases hi : ss[i]? with
    | none => exact (StrTable.has_neg t).1
    | some x =>
      have hlt := (List.getElem?_eq_some_iff.1 hi).1
      have := (hget i hlt).1
      rw [hi] at this
      exact this
  · intro _ n hn x hx
    have := hr n hn
    rw [hx] at this; exact this.elim
  · rw [hmarks]
    have e1 : lineFirst (ps.map (renamePoint ss)) =
        fun i => (lineFirst ps i).map fun x => ((ss[x.1.toNat]?).getD 0, x.2) :=
      funext (lineFirst_rename ss ps)
    have e2 := follow_rename (α := isBlank) (fun i => (ss[i.toNat]?).getD 0) (org := lineFirst ps)
      (splitKeep '\n' code) 1 none
    rw [Option.map_none] at e2
    rw [e1, e2]
    have hfo := follow_has (α := isBlank) (P := fun i => i.toNat < ss.length) hor (splitKeep '\n' code) 1 none
      (by intro x hx; cases hx)
    constructor
    · rw [List.map_map]
      apply List.map_congr_left
      intro p hp
      cases hx : p.2 with
      | none => simp [hx]
      | some x =>
        have := (hget _ (hfo p hp x hx)).2
        simp [hx, this]
    · intro p hp x hx
      obtain ⟨q, hq, rfl⟩ := List.mem_map.1 hp
      obtain ⟨y, hy, rfl⟩ := Option.map_eq_some_iff.1 hx
      exact (hget _ (hfo q hq y hy)).1

/-! ## Programs -/

theorem Fits.put {w w' : LWorld} {ds : List (Option LDesc)} (F : Fits w ds)
    (g : w.base.strs.Grown w'.base.strs) {v : LVal} (hl : w'.lists = w.lists ++ [v]) {d : Option LDesc}
    (h : ∀ x, d = some x → ∀ m, v.slm = some m → SlmGood w'.base.strs m x) : Fits w' (ds ++ [d]) := by
  refine ⟨g.ok F.strs, by rw [hl]; simp [F.length], ?_⟩
  intro i v' x hv hx m hm
  rw [hl] at hv
  by_cases hi : i < w.lists.length
  · rw [List.getElem?_append_left hi] at hv
    rw [List.getElem?_append_left (by rw [← F.length]; exact hi)] at hx
    exact (F.good i v' x hv hx m hm).mono g.array
  · rw [List.getElem?_append_right (by omega)] at hv
    rw [List.getElem?_append_right (by rw [← F.length]; omega), ← F.length] at hx
    cases hk : i - w.lists.length with
    | zero =>
      rw [hk] at hv hx
      simp only [List.getElem?_cons_zero, Option.some.injEq] at hv hx
      subst hv
      exact h x hx m hm
    | succ k => rw [hk] at hv; simp at hv

theorem Fits.set {w w' : LWorld} {ds : List (Option LDesc)} (F : Fits w ds)
    (g : w.base.strs.Grown w'.base.strs) {k : Nat} {v : LVal} (hl : w'.lists = w.lists.set k v)
    {d : Option LDesc} (h : ∀ x, d = some x → ∀ m, v.slm = some m → SlmGood w'.base.strs m x) :
    Fits w' (ds.set k d) := by
  refine ⟨g.ok F.strs, by rw [hl]; simp [F.length], ?_⟩
  intro i v' x hv hx m hm
  rw [hl] at hv
  by_cases hi : k = i
  · subst hi
    rw [List.getElem?_set_self'] at hv hx
    obtain ⟨_, -, rfl⟩ := Option.map_eq_some_iff.1 hv
    obtain ⟨_, -, hx⟩ := Option.map_eq_some_iff.1 hx
    exact h x hx m hm
  · rw [List.getElem?_set_ne hi] at hv hx
    exact (F.good i v' x hv hx m hm).mono g.array

theorem Fits.keep {w w' : LWorld} {ds : List (Option LDesc)} (F : Fits w ds)
    (g : w.base.strs.Grown w'.base.strs) (hl : w'.lists = w.lists) : Fits w' ds :=
  ⟨g.ok F.strs, by rw [hl]; exact F.length, fun i v x hv hx m hm =>
    (F.good i v x (hl ▸ hv) hx m hm).mono g.array⟩

theorem join_some {α : Type} {l : List (Option α)} {i : Nat} {x : α} (h : l[i]?.join = some x) :
    l[i]? = some (some x) := by
  cases hi : l[i]? with
  | none => rw [hi] at h; cases h
  | some y => rw [hi] at h; exact congrArg some h

/-- An object that is put into a list map. -/
theorem Fits.node {w : LWorld} {ds : List (Option LDesc)} (F : Fits w ds) {i : Nat} {n : LNode}
    (e : w.node (.obj i) = .ok n) : ∃ m, (∀ k src orig, slmAdd k n src orig = .ok (k ++ m)) ∧
      (∀ k src orig, slmPrepend k n src orig = .ok (m ++ k)) ∧
      ∀ d, ds[i]? = some (some d) → SlmGood w.base.strs m d := by
  simp only [LWorld.node] at e
  split at e
  · cases e
  · cases e
  · cases e
  all_goals
    rename_i x hi
    cases e
    exact ⟨_, fun _ _ _ => rfl, fun _ _ _ => rfl, fun d hd => F.good i _ d hi hd _ rfl⟩

/-- The receiver of a call. -/
theorem LWorld.target_some {w : LWorld} {i : Nat} {m : Slm} (e : w.target i = .ok m) :
    w.lists[i]? = some (.map m) := by
  simp only [LWorld.target] at e
  split at e
  · cases e; assumption
  · cases e
  · cases e
  · cases e

theorem Fits.add {w w' : LWorld} {ds : List (Option LDesc)} (F : Fits w ds) {i : Nat} {a : LArg}
    {source : Option Str} {original : JVal} (e : w.add i a source original = .ok w') :
    w.base.strs.Grown w'.base.strs ∧ ∃ m m', w.lists[i]? = some (.map m) ∧ w'.lists = w.lists.set i (.map m') ∧
      ∀ d b, ds[i]? = some (some d) → argument ds source a = some b → SlmGood w'.base.strs m' (d.then b) := by
  simp only [LWorld.add, Except.bind_ok_iff, Except.map_ok_iff] at e
  obtain ⟨n, h1, m, h2, m', h3, rfl⟩ := e
  have hg := w.names_grown source original
  have ht := LWorld.target_some h2
  rw [LWorld.names_lists] at ht
  refine ⟨hg, m, m', ht, by rw [LWorld.names_lists], ?_⟩
  intro d b hd hb
  have gd := (F.good i _ d ht hd m rfl).mono hg.array
  cases a with
  | str s =>
    cases h1
    simp only [liftM, slmAdd] at h3
    cases h3
    obtain ⟨k1, k2⟩ := LWorld.names_has F.strs source original
    simp only [argument, Option.some.injEq] at hb
    subst hb
    refine gd.addStr s (w.names source original).1 (w.names source original).2.1 k1 _ ?_
    cases hs : truthy source with
    | none => simp [LWorld.names, hs]
    | some f =>
      rw [hs] at k2
      have e1 : ∃ j, (w.names source original).1 = some j := by simp [LWorld.names, hs]
      obtain ⟨j, hj⟩ := e1
      rw [hj] at k2 ⊢
      dsimp only [Option.getD, Option.map] at k2 ⊢
      rw [k2]
  | obj j =>
    obtain ⟨x, hx, -, hgood⟩ := F.node h1
    rw [hx, liftM] at h3
    cases h3
    exact gd.append ((hgood b (join_some hb)).mono hg.array)

theorem Fits.prepend {w w' : LWorld} {ds : List (Option LDesc)} (F : Fits w ds) {i j : Nat}
    {source : Option Str} {original : JVal} (e : w.prepend i (.obj j) source original = .ok w') :
    w.base.strs.Grown w'.base.strs ∧ ∃ m m', w.lists[i]? = some (.map m) ∧ w'.lists = w.lists.set i (.map m') ∧
      ∀ d b, ds[i]? = some (some d) → ds[j]? = some (some b) → SlmGood w'.base.strs m' (b.then d) := by
  simp only [LWorld.prepend, Except.bind_ok_iff, Except.map_ok_iff] at e
  obtain ⟨n, h1, m, h2, m', h3, rfl⟩ := e
  have hg := w.names_grown source original
  have ht := LWorld.target_some h2
  rw [LWorld.names_lists] at ht
  refine ⟨hg, m, m', ht, by rw [LWorld.names_lists], ?_⟩
  intro d b hd hb
  have gd := (F.good i _ d ht hd m rfl).mono hg.array
  obtain ⟨x, -, hx, hgood⟩ := F.node h1
  rw [hx, liftM] at h3
  cases h3
  exact SlmGood.append ((hgood b hb).mono hg.array) gd

/-- A string put in front: nothing is said of the result. -/
theorem LWorld.prepend_grown {w w' : LWorld} {i : Nat} {a : LArg} {source : Option Str} {original : JVal}
    (e : w.prepend i a source original = .ok w') :
    w.base.strs.Grown w'.base.strs ∧ ∃ v, w'.lists = w.lists.set i v := by
  simp only [LWorld.prepend, Except.bind_ok_iff, Except.map_ok_iff] at e
  obtain ⟨n, h1, m, h2, m', h3, rfl⟩ := e
  exact ⟨w.names_grown source original, .map m', by rw [LWorld.names_lists]⟩

theorem Fits.run {w w' : LWorld} {ds : List (Option LDesc)} (F : Fits w ds) {op : LOp} {a : LAnswer}
    (r : op.run w = .ok (a, w')) : Fits w' (describe ds op) := by
  cases op with
  | js op =>
    simp only [LOp.run] at r
    split at r
    · cases r
    · rename_i b hb
      cases r
      exact F.keep (JOp.run_grown hb) rfl
  | newCode s =>
    cases r
    apply F.put
    · exact .rfl' _
    · exact rfl
    intro x hx m hm
    cases hx
    split at hm
    · cases hm
    · cases hm; exact SlmGood.code s
  | newSource s source original line =>
    simp only [LOp.run] at r
    split at r
    · cases r
      apply F.put
      · exact .rfl' _
      · exact rfl
      intro x hx m hm; cases hm
    · cases r
      apply F.put
      · exact w.names_grown source original
      · show (w.names source original).2.2.lists ++ [_] = _
        rw [LWorld.names_lists]
      intro x hx m hm
      cases hx; cases hm
      obtain ⟨k1, k2⟩ := LWorld.names_has F.strs source original
      have := SlmGood.source s (w.names source original).1 (w.names source original).2.1
        (startLine_pos line) k1
      rw [k2] at this
      exact this
  | newSingle s source original line =>
    simp only [LOp.run] at r
    split at r
    · cases r
      apply F.put
      · exact .rfl' _
      · exact rfl
      intro x hx m hm; cases hm
    · split at r
      · cases r
      · cases r
        apply F.put
        · exact w.names_grown source original
        · show (w.names source original).2.2.lists ++ [_] = _
          rw [LWorld.names_lists]
        intro x hx m hm
        cases hx; cases hm
        obtain ⟨k1, k2⟩ := LWorld.names_has F.strs source original
        have := SlmGood.single s (w.names source original).1 (w.names source original).2.1
          (startLine_pos line) k1
        rw [k2] at this
        exact this
  | newEmpty =>
    cases r
    apply F.put
    · exact .rfl' _
    · exact rfl
    intro x hx m hm
    cases hx; cases hm; exact .nil
  | newMap a source original =>
    simp only [LOp.run] at r
    split at r
    · rename_i hc
      cases r
      obtain ⟨rfl, hs⟩ := hc
      apply F.put
      · exact .rfl' _
      · exact rfl
      intro x hx m hm
      simp only [argument, hs, Option.some.injEq] at hx
      subst hx
      cases hm; exact .nil
    · simp only [Except.map_ok_iff] at r
      obtain ⟨w2, h1, h2⟩ := r
      cases h2
      simp only [Except.bind_ok_iff] at h1
      obtain ⟨-, -, h1⟩ := h1
      have F1 : Fits (w.put (.map [])) (ds ++ [some ⟨[], true⟩]) := by
        apply F.put
        · exact .rfl' _
        · exact rfl
        intro x hx m hm
        cases hx; cases hm; exact .nil
      obtain ⟨hg, m, m', k1, k2, k3⟩ := F1.add h1
      have hl : w'.lists = w.lists ++ [.map m'] := by
        rw [k2, LWorld.put]
        dsimp only
        rw [List.set_append_right _ _ (Nat.le_refl _), Nat.sub_self]
        rfl
      refine F.put hg hl ?_
      intro x hx m2 hm2
      cases hm2
      have := k3 ⟨[], true⟩ x (by rw [F.length, List.getElem?_concat_length]) ?_
      · simpa [LDesc.then] using this
      · cases a with
        | str s => exact hx
        | obj j =>
          have hx := join_some hx
          simp only [argument]
          rw [getElem?_append_some hx]; rfl
  | newArray as =>
    simp only [LOp.run, Except.map_ok_iff] at r
    obtain ⟨_, -, h2⟩ := r
    cases h2
    apply F.put
    · exact .rfl' _
    · exact rfl
    · intro x hx; cases hx
  | fromString code sources contents names mappings =>
    simp only [LOp.run, Except.map_ok_iff] at r
    obtain ⟨m, h1, h2⟩ := r
    cases h2
    have hg := (w.base.internAll_grown sources).trans
      (World.internAllNew_grown (w.base.internAll sources).2 contents)
    apply F.put
    · exact hg
    · exact rfl
    intro x hx m2 hm2
    cases hm2
    have hv := (World.internAll_values (vs := sources) F.strs).2
    have hv := StrTable.values_mono (World.internAllNew_same (w.base.internAll sources).2 contents).strs hv
    have h1' : slmFromString code (w.base.internAll sources).1
        ((w.base.internAll sources).2.internAllNew contents).1 mappings = .ok m := by
      cases hx2 : slmFromString code (w.base.internAll sources).1
        ((w.base.internAll sources).2.internAllNew contents).1 mappings with
      | error p => rw [hx2] at h1; cases h1
      | ok y => rw [hx2] at h1; cases h1; rfl
    exact SlmGood.fromString hv h1' hx
  | listMap j c md =>
    simp only [LOp.run] at r
    split at r
    · cases r
    · split at r
      · cases r
      · split at r
        · cases r
        · rename_i hc
          cases r
          apply F.put
          · exact .of_eq (World.call_strs hc).1
          · exact rfl
          · intro x hx; cases hx
        · cases r
  | add i a source original =>
    simp only [LOp.run, Except.map_ok_iff] at r
    obtain ⟨w2, h1, h2⟩ := r
    cases h2
    obtain ⟨hg, m, m', k1, k2, k3⟩ := F.add h1
    refine F.set hg k2 ?_
    intro x hx m2 hm2
    cases hm2
    obtain ⟨d, hd, hx⟩ := Option.bind_eq_some_iff.1 hx
    obtain ⟨b, hb, rfl⟩ := Option.map_eq_some_iff.1 hx
    exact k3 d b (join_some hd) hb
  | prepend i a source original =>
    simp only [LOp.run, Except.map_ok_iff] at r
    obtain ⟨w2, h1, h2⟩ := r
    cases h2
    cases a with
    | str s =>
      obtain ⟨hg, v, hv⟩ := LWorld.prepend_grown h1
      exact F.set hg hv (fun x hx => by cases hx)
    | obj j =>
      obtain ⟨hg, m, m', k1, k2, k3⟩ := F.prepend h1
      refine F.set hg k2 ?_
      intro x hx m2 hm2
      cases hm2
      obtain ⟨d, hd, hx⟩ := Option.bind_eq_some_iff.1 hx
      obtain ⟨b, hb, rfl⟩ := Option.map_eq_some_iff.1 hx
      exact k3 d b (join_some hd) (join_some hb)
  | clone i => cases r
  | mapCode i f =>
    simp only [LOp.run] at r
    split at r
    · cases r
    · simp only [Except.bind_ok_iff] at r
      obtain ⟨m, h1, h2⟩ := r
      split at h2
      · cases h2
      · rename_i m' hf
        cases h2
        have ht := LWorld.target_some h1
        have F1 : Fits { w with lists := w.lists.set i .dead } (ds.set i none) :=
          F.set (w' := { w with lists := w.lists.set i .dead }) (.rfl' _) rfl (d := none)
            (fun x hx => by cases hx)
        apply F1.put
        · exact .rfl' _
        · exact rfl
        intro x hx m2 hm2
        cases hm2
        cases f with
        | identical =>
          obtain ⟨d, hd, hx⟩ := Option.bind_eq_some_iff.1 hx
          split at hx
          · cases hx
            cases hf
            exact (F.good i _ d ht (join_some hd) m rfl).identical ‹_›
          · cases hx
        | _ => cases hx
  | toString i =>
    simp only [LOp.run, Except.map_ok_iff] at r
    obtain ⟨_, -, h2⟩ := r
    cases h2
    exact F
  | render i =>
    simp only [LOp.run, Except.map_ok_iff] at r
    obtain ⟨_, -, h2⟩ := r
    cases h2
    exact F.keep (.rfl' _) rfl

theorem Fits.runFrom : ∀ {ops : List LOp} {w w' : LWorld} {ds : List (Option LDesc)}, Fits w ds →
    w.runFrom ops = .ok w' → Fits w' (ops.foldl describe ds)
  | [], _, _, _, F, r => by cases r; exact F
  | op :: ops, w, w', ds, F, r => by
    simp only [LWorld.runFrom] at r
    split at r
    · cases r
    · rename_i h
      exact Fits.runFrom (ops := ops) (F.run h) r

theorem Fits.empty : Fits LWorld.empty [] := by
  refine ⟨⟨?_⟩, rfl, ?_⟩
  · intro s i h; cases h
  · intro i v d h; cases h

theorem Fits.of_run {ops : List LOp} {w : LWorld} (r : LWorld.run ops = .ok w) :
    Fits w (descriptions ops) := Fits.empty.runFrom r

/-! ## Emitted pairs -/

theorem LOp.run_maps {w w' : LWorld} {op : LOp} {a : LAnswer} (r : op.run w = .ok (a, w'))
    (hj : ∀ j, op ≠ .js j) : w.base.strs.Grown w'.base.strs ∧ ∃ x, w'.base.maps = w.base.maps ++ x := by
  have add : ∀ {w w' : LWorld} {i : Nat} {a : LArg} {s : Option Str} {o : JVal}, w.add i a s o = .ok w' →
      w.base.strs.Grown w'.base.strs ∧ ∃ x, w'.base.maps = w.base.maps ++ x := by
    intro w w' i a s o e
    simp only [LWorld.add, Except.bind_ok_iff, Except.map_ok_iff] at e
    obtain ⟨n, h1, m, h2, m', h3, rfl⟩ := e
    exact ⟨w.names_grown _ _, [], by simp [LWorld.names_maps]⟩
  cases op with
  | js op => exact absurd rfl (hj op)
  | newCode s => cases r; exact ⟨.rfl' _, [], by simp [LWorld.put]⟩
  | newSource s source original line =>
    simp only [LOp.run] at r
    split at r
    · cases r; exact ⟨.rfl' _, [], by simp [LWorld.put]⟩
    · cases r; exact ⟨w.names_grown _ _, [], by simp [LWorld.put, LWorld.names_maps]⟩
  | newSingle s source original line =>
    simp only [LOp.run] at r
    split at r
    · cases r; exact ⟨.rfl' _, [], by simp [LWorld.put]⟩
    · split at r
      · cases r
      · cases r; exact ⟨w.names_grown _ _, [], by simp [LWorld.put, LWorld.names_maps]⟩
  | newEmpty => cases r; exact ⟨.rfl' _, [], by simp [LWorld.put]⟩
  | newMap a source original =>
    simp only [LOp.run] at r
    split at r
    · cases r; exact ⟨.rfl' _, [], by simp [LWorld.put]⟩
    · simp only [Except.map_ok_iff] at r
      obtain ⟨w2, h1, h2⟩ := r
      cases h2
      simp only [Except.bind_ok_iff] at h1
      obtain ⟨-, -, h1⟩ := h1
      exact add (w := w.put (.map [])) h1
  | newArray as =>
    simp only [LOp.run, Except.map_ok_iff] at r
    obtain ⟨_, -, h2⟩ := r
    cases h2
    exact ⟨.rfl' _, [], by simp [LWorld.put]⟩
  | fromString code sources contents names mappings =>
    simp only [LOp.run, Except.map_ok_iff] at r
    obtain ⟨m, h1, h2⟩ := r
    cases h2
    exact ⟨(w.base.internAll_grown sources).trans
      (World.internAllNew_grown (w.base.internAll sources).2 contents), [], by
        simp [World.internAll_maps, World.internAllNew_maps]⟩
  | listMap j c md =>
    simp only [LOp.run] at r
    split at r
    · cases r
    · split at r
      · cases r
      · split at r
        · cases r
        · rename_i hc
          cases r
          exact ⟨.of_eq (World.call_strs hc).1, [], by simp [(World.call_strs hc).2]⟩
        · cases r
  | add i a source original =>
    simp only [LOp.run, Except.map_ok_iff] at r
    obtain ⟨w2, h1, h2⟩ := r
    cases h2
    exact add h1
  | prepend i a source original =>
    simp only [LOp.run, Except.map_ok_iff] at r
    obtain ⟨w2, e, h2⟩ := r
    cases h2
    simp only [LWorld.prepend, Except.bind_ok_iff, Except.map_ok_iff] at e
    obtain ⟨n, h1, m, h2, m', h3, rfl⟩ := e
    exact ⟨w.names_grown _ _, [], by simp [LWorld.names_maps]⟩
  | clone i => cases r
  | mapCode i f =>
    simp only [LOp.run] at r
    split at r
    · cases r
    · simp only [Except.bind_ok_iff] at r
      obtain ⟨m, h1, h2⟩ := r
      split at h2
      · cases h2
      · cases h2; exact ⟨.rfl' _, [], by simp⟩
  | toString i =>
    simp only [LOp.run, Except.map_ok_iff] at r
    obtain ⟨_, -, h2⟩ := r
    cases h2
    exact ⟨.rfl' _, [], by simp⟩
  | render i =>
    simp only [LOp.run, Except.map_ok_iff] at r
    obtain ⟨_, -, h2⟩ := r
    cases h2
    exact ⟨.rfl' _, _, rfl⟩

theorem Lasting.runList {P : StrTable JVal → Emitted → Prop} (L : Lasting P) {k : Nat} :
    ∀ {ops : List LOp} {w w' : LWorld} {e : Emitted}, w.base.maps[k]? = some e → P w.base.strs e →
    (∀ op, .js op ∈ ops → ¬ op.gives k) → (∀ a, .js (.set k a) ∉ ops) → w.runFrom ops = .ok w' →
    ∃ e', w'.base.maps[k]? = some e' ∧ P w'.base.strs e'
  | [], w, w', e, hk, hp, _, _, r => by cases r; exact ⟨e, hk, hp⟩
  | op :: ops, w, w', e, hk, hp, hg, hs, r => by
    simp only [LWorld.runFrom] at r
    split at r
    · cases r
    rename_i w1 h1
    have step : ∃ e', w1.base.maps[k]? = some e' ∧ P w1.base.strs e' := by
      by_cases hj : ∃ j, op = .js j
      · obtain ⟨j, rfl⟩ := hj
        simp only [LOp.run] at h1
        split at h1
        · cases h1
        · rename_i h2
          cases h1
          exact L.run hk hp (fun h => absurd h (hg j (by simp)))
            (fun x hx => absurd (by simp [hx]) (hs x)) h2
      · obtain ⟨g, x, hx⟩ := LOp.run_maps h1 (fun j h => hj ⟨j, h⟩)
        exact ⟨e, by rw [hx]; exact getElem?_append_some hk, L.mono g.array hp⟩
    obtain ⟨e1, k1, p1⟩ := step
    exact Lasting.runList L (ops := ops) k1 p1 (fun o ho => hg o (by simp [ho]))
      (fun a ha => hs a (by simp [ha])) r

theorem Displays.unique {t : StrTable JVal} {c : Bool} {s : Str} {m : SourceMap} {f : JField}
    {u v : JFieldVal} (h : Displays t c s m f u) (h' : Displays t c s m f v) : u = v := by
  cases f with
  | source => exact Eq.trans h (Eq.symm h')
  | mappings => exact Eq.trans h (Eq.symm h')
  | sources =>
    obtain ⟨l, h1, rfl⟩ := h
    obtain ⟨l', h2, rfl⟩ := h'
    rw [h1] at h2; cases h2; rfl
  | contents =>
    obtain ⟨l, h1, rfl⟩ := h
    obtain ⟨l', h2, rfl⟩ := h'
    rw [h1] at h2; cases h2; rfl
  | names =>
    simp only [Displays] at h h'
    split at h
    · rename_i hc
      rw [if_pos hc] at h'
      obtain ⟨l, h1, rfl⟩ := h
      obtain ⟨l', h2, rfl⟩ := h'
      rw [h1] at h2; cases h2; rfl
    · rename_i hc
      rw [if_neg hc] at h'
      rw [h, h']

/-- What is to be read can be read. -/
theorem Tells.reads {w : World} {k : Nat} {e : Emitted} (hk : w.maps[k]? = some e) {c : Bool} {s : Str}
    {m : SourceMap} {f : JField} {v : JFieldVal} (h : e.Tells c s m f w.strs) (hd : Displays w.strs c s m f v) :
    Reads w k f v := by
  suffices hs : ∃ e', e.get w f = .ok (v, e') by
    obtain ⟨e', he⟩ := hs
    exact ⟨_, by simp only [JOp.run, hk, he, Except.map]; rfl⟩
  rcases h with ⟨h1, h2, ⟨wm, wm', hw, hm⟩, ⟨wm2, hw2, rfl⟩⟩ | ⟨u, h1, h2⟩
  · rw [hw] at hw2; cases hw2
    cases f with
    | source =>
      cases hd
      exact ⟨_, by simp [Emitted.get, Emitted.getSource, show e.source = none from h1, hw, Except.map]; rfl⟩
    | sources =>
      obtain ⟨l, hl, rfl⟩ := hd
      have hl := World.resolve_values.2 hl
      exact ⟨_, by simp [Emitted.get, Emitted.getSources, show e.sources = none from h1, Emitted.data, hw, hm, hl,
        Except.map, Except.bind]; rfl⟩
    | contents =>
      obtain ⟨l, hl, rfl⟩ := hd
      have hl := World.resolve_values.2 hl
      cases l <;>
      exact ⟨_, by simp [Emitted.get, Emitted.getContents, show e.contents = none from h1, Emitted.data, hw, hm, hl,
        Except.map, Except.bind]; rfl⟩
    | mappings =>
      cases hd
      exact ⟨_, by simp [Emitted.get, Emitted.getMappings, show e.mappings = none from h1, Emitted.data, hw, hm,
        Except.map]; rfl⟩
    | names =>
      have hc := h2 rfl
      obtain ⟨h3, h4⟩ : e.hasNames = true ∧ e.names = none := h1
      rw [h3] at hc; subst hc
      simp only [Displays, if_true] at hd
      obtain ⟨l, hl, rfl⟩ := hd
      have hl := World.resolve_values.2 hl
      exact ⟨_, by simp [Emitted.get, Emitted.getNames, h3, h4, Emitted.data, hw, hm, hl, Except.map, Except.bind]; rfl⟩
  · rw [Displays.unique hd h2]
    exact ⟨_, h1.get w⟩

/-! ## The claim -/

/-- The points, with indices into `l`, attribute every character as said, at column 0 of its line. -/
def Spec.AttributesNamed (l : List JVal) (ps : List Point) (p : Nat × Nat) (m : NamedMarks) : Prop :=
  ∀ k c o, m[k]? = some (c, o) →
    (lookup ps (posFromB p ((m.take k).map Prod.fst)).1 (posFromB p ((m.take k).map Prod.fst)).2).map
        (fun x => (l[x.source.toNat]?, x.line, x.col, x.name)) =
      o.map fun x => (some x.1, x.2, 0, none)

/-- What is read from the pair a list map gives. -/
theorem SlmGood.reads {w : World} {k : Nat} {m : Slm} {d : LDesc} (good : SlmGood w.strs m d)
    (tells : ∀ f, ∃ e', w.maps[k]? = some e' ∧ e'.Tells false (slmToStringWithSourceMap m none).source
      (slmToStringWithSourceMap m none).map f w.strs) :
    Reads w k .source (.text (d.marks.map Prod.fst)) ∧
    ∃ l s ps, Reads w k .sources (.list l) ∧ Reads w k .mappings (.text s) ∧
      points (idTable l.length) [] s = some ps ∧ AttributesNamed l ps (1, 0) (seen none d.marks) := by
  obtain ⟨hm1, hm2⟩ := C12_segments_partial m none good.ok
  obtain ⟨qs, hq1, hq2⟩ := C12_lookup_partial m none good.ok
  have hsrc : ∀ j ∈ (slmToStringWithSourceMap m none).map.sources, w.strs.Has j := by
    intro j hj
    have := slmMappings_has (c := MapCtx.new) good.has (by simp [MapCtx.new])
    simp only [slmToStringWithSourceMap] at hj
    obtain ⟨p, hp, rfl⟩ := List.mem_map.1 hj
    exact this p hp
  have hvals := StrTable.values_get hsrc
  constructor
  · obtain ⟨e', k1, k2⟩ := tells .source
    refine Tells.reads k1 k2 ?_
    show JFieldVal.text _ = .text _
    rw [hm2, good.named.eq, List.map_map, ← piecesMarks_fst]
    rfl
  · have hpts : points (idTable (slmToStringWithSourceMap m none).map.sources.length) []
        (slmToStringWithSourceMap m none).map.mappings ≠ none := by
      intro h0
      rw [mapPoints, points_rename] at hq1
      have : (slmToStringWithSourceMap m none).map.names = [] := rfl
      rw [this, h0] at hq1
      cases hq1
    obtain ⟨ps, hps⟩ := Option.ne_none_iff_exists'.1 hpts
    refine ⟨(slmToStringWithSourceMap m none).map.sources.map w.strs.name,
      (slmToStringWithSourceMap m none).map.mappings, ps, ?_, ?_, by rw [List.length_map]; exact hps, ?_⟩
    · obtain ⟨e', k1, k2⟩ := tells .sources
      exact Tells.reads k1 k2 ⟨_, hvals, rfl⟩
    · obtain ⟨e', k1, k2⟩ := tells .mappings
      exact Tells.reads k1 k2 rfl
    · have hqs : qs = ps.map (renamePoint (slmToStringWithSourceMap m none).map.sources) := by
        rw [mapPoints, points_rename] at hq1
        have : (slmToStringWithSourceMap m none).map.names = [] := rfl
        rw [this, hps] at hq1
        exact (Option.some.inj hq1).symm
      rw [hqs] at hq2
      intro j c o hj
      have hseen := seen_map w.strs.name (piecesMarks (m.map LNode.piece)) none
      rw [Option.map_none, ← good.named.eq] at hseen
      rw [hseen] at hj ⊢
      rw [List.getElem?_map] at hj
      obtain ⟨⟨c', o'⟩, hj', hco⟩ := Option.map_eq_some_iff.1 hj
      cases hco
      have := hq2 j c' o' hj'
      rw [← List.map_take, List.map_map]
      rw [lookup_rename] at this
      have hfst : (Prod.fst ∘ fun p : Char × Option (Int × Nat) =>
          (p.1, p.2.map fun x => (w.strs.name x.1, x.2))) = Prod.fst := rfl
      rw [hfst]
      generalize hpos : posFromB (1, 0) _ = pos at this ⊢
      cases hl : lookup ps pos.1 pos.2 with
      | none =>
        rw [hl] at this
        cases o' with
        | none => rfl
        | some x => cases this
      | some x =>
        rw [hl] at this
        cases o' with
        | none => cases this
        | some y =>
          have hlt := lookup_inRange hps hl
          simp only [Option.map_some, Option.some.injEq, renameOrigin] at this
          rw [Origin.mk.injEq] at this
          obtain ⟨t1, t2, t3, t4⟩ := this
          rw [List.getElem?_eq_getElem hlt] at t1
          simp only [Option.getD_some] at t1
          simp [hlt, t1, t2, t3, t4]

theorem World.Lasts.of_runList {more : List LOp} {w w' : LWorld} {k : Nat} (e : w.runFrom more = .ok w')
    (hg : ∀ op, .js op ∈ more → ¬ op.gives k) (hs : ∀ a, .js (.set k a) ∉ more) : World.Lasts k w.base w'.base :=
  fun _ L _ hk hp => L.runList hk hp hg hs e

/-- A list map that was rendered, read later. -/
theorem World.render_reads {w w2 : World} {m : Slm} {d : LDesc} (good : SlmGood w.strs m d)
    (e2 : World.Lasts w.maps.length { w with maps := w.maps ++ [Emitted.new
      ⟨(slmToStringWithSourceMap m none).source, some (slmToStringWithSourceMap m none).map, none⟩ false] } w2) :
    Reads w2 w.maps.length .source (.text (d.marks.map Prod.fst)) ∧
    ∃ l s ps, Reads w2 w.maps.length .sources (.list l) ∧ Reads w2 w.maps.length .mappings (.text s) ∧
      points (idTable l.length) [] s = some ps ∧ AttributesNamed l ps (1, 0) (seen none d.marks) := by
  have tells : ∀ f, ∃ e', w2.maps[w.maps.length]? = some e' ∧
      e'.Tells false (slmToStringWithSourceMap m none).source (slmToStringWithSourceMap m none).map f w2.strs :=
    fun f => e2 _ (Tells.lasting false _ _ f) _ List.getElem?_concat_length
      (Tells.new (wm := ⟨(slmToStringWithSourceMap m none).source,
        some (slmToStringWithSourceMap m none).map, none⟩) ⟨_, rfl⟩)
  exact (good.mono (e2.array List.getElem?_concat_length)).reads tells

/-- C56, without strings put in front, list maps of other objects, and rewritten code other than by the
identity. The pair is read at any later time, provided it was not given to a `SourceMapSource` or
assigned to (C54, C55). Missing: see `C56_not_general`. -/
theorem C56_partial (ops more : List LOp) (w w1 w2 : LWorld) (i k : Nat) (d : LDesc)
    (r : LWorld.run ops = .ok w) (hd : (descriptions ops)[i]? = some (some d))
    (e : (LOp.render i).run w = .ok (.pair k, w1)) (e2 : w1.runFrom more = .ok w2)
    (hg : ∀ op, .js op ∈ more → ¬ op.gives k) (hs : ∀ a, .js (.set k a) ∉ more) :
    Reads w2.base k .source (.text (d.marks.map Prod.fst)) ∧
    ∃ l s ps, Reads w2.base k .sources (.list l) ∧ Reads w2.base k .mappings (.text s) ∧
      points (idTable l.length) [] s = some ps ∧ AttributesNamed l ps (1, 0) (seen none d.marks) := by
  have F := Fits.of_run r
  simp only [LOp.run, Except.map_ok_iff] at e
  obtain ⟨m, h1, h2⟩ := e
  cases h2
  exact World.render_reads (F.good i _ d (LWorld.target_some h1) hd m rfl) (.of_runList e2 hg hs)

/-! ## Without the conditions -/

/-- The text of a rendered list map, and what its map says of the positions. -/
def rendered (ops : List LOp) (i : Nat) (at_ : List (Nat × Nat)) :
    Option (Str × List (Option (JVal × Nat))) :=
  (LWorld.run ops).toOption.bind fun w => (w.target i).toOption.bind fun m =>
    let r := slmToStringWithSourceMap m none
    (mapPoints r.map).map fun ps => (r.source, at_.map fun p =>
      (lookup ps p.1 p.2).map fun o => (w.base.strs.name o.source, o.line))

/-- Without the conditions the claim is false. A string put in front of a list map with its file gets no
origin. Where a single-line node holds several lines, the identity attributes lines behind it to other
lines. -/
theorem C56_not_general :
    rendered [.newEmpty, .prepend 0 (.str "a\n".toList) (some "f.js".toList) none] 0 [(1, 0)] =
      some ("a\n".toList, [none]) ∧
    rendered [.newSingle "a\nb".toList (some "f.js".toList) none 7,
        .newSource "w\nx\n".toList (some "f.js".toList) none 5, .newEmpty, .add 2 (.obj 1) none none,
        .add 2 (.obj 0) none none] 2 [(2, 0), (3, 0), (4, 0)] =
      some ("w\nx\na\nb".toList, [some (some "f.js".toList, 6), some (some "f.js".toList, 7),
        some (some "f.js".toList, 7)]) ∧
    rendered [.newSingle "a\nb".toList (some "f.js".toList) none 7,
        .newSource "w\nx\n".toList (some "f.js".toList) none 5, .newEmpty, .add 2 (.obj 1) none none,
        .add 2 (.obj 0) none none, .mapCode 2 .identical] 3 [(2, 0), (3, 0), (4, 0)] =
      some ("w\nx\na\nb".toList, [some (some "f.js".toList, 6), some (some "f.js".toList, 7),
        some (some "f.js".toList, 8)]) :=
  ⟨by decide +kernel, by decide +kernel, by decide +kernel⟩

/-! Non-trivial case: nodes of all kinds, a map that is read, the identity, appending and putting in
front. -/

/-- A program with all kinds of nodes. -/
def c56Program : List LOp :=
  [.newCode "// é\n".toList, .newSource "a\nb\n".toList (some "f.js".toList) (some "a\nb\n".toList) 3,
   .newSingle "c\n".toList (some "g.js".toList) none 0, .newMap (.str "d\ne".toList) (some "f.js".toList) none,
   .fromString "p\n\nq\n".toList [some "h.js".toList, some "f.js".toList] [] [] "AAAA;;ACCA".toList,
   .js (.newOriginal "z".toList "z.js".toList), .newEmpty, .add 5 (.obj 1) none none,
   .add 5 (.str " + ".toList) none none, .add 5 (.obj 2) none none, .prepend 5 (.obj 0) none none,
   .add 5 (.obj 3) none none, .add 5 (.str "\n".toList) none none, .mapCode 5 .identical,
   .add 6 (.obj 4) none none]

example : (descriptions c56Program)[6]? = some (some ⟨
    plainly "// é\n".toList ++ fromFile (some "f.js".toList) 1 3 "a\nb\n".toList ++ plainly " + ".toList ++
    fromFile (some "g.js".toList) 0 1 "c\n".toList ++ fromFile (some "f.js".toList) 1 1 "d\ne".toList ++
    plainly "\n".toList ++ fromFile (some "h.js".toList) 1 1 "p\n\n".toList ++
    fromFile (some "f.js".toList) 1 2 "q\n".toList, false⟩) := by decide +kernel
example : rendered c56Program 6 [(1, 0), (2, 0), (3, 0), (4, 0), (4, 3), (5, 0), (6, 0), (6, 1), (8, 0), (9, 0)] =
    some ("// é\na\nb\n + c\nd\ne\np\n\nq\n".toList,
      [none, some (some "f.js".toList, 3), some (some "f.js".toList, 4), none, some (some "g.js".toList, 1),
       some (some "f.js".toList, 1), some (some "f.js".toList, 2), some (some "f.js".toList, 2),
       some (some "h.js".toList, 2), some (some "f.js".toList, 2)]) := by decide +kernel
example : (((LWorld.run (c56Program ++ [.render 6])).toOption.map fun w =>
    (JOp.get 0 .sources).run w.base |>.toOption.map Prod.fst)) =
    some (some (.field (.list [some "f.js".toList, some "g.js".toList, some "h.js".toList]))) := by decide +kernel

end WS
