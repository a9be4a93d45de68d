import Verif.Props.C66
/-!
# C67: the files in the line maps of a program

Claim: the map of `sourceAndMap({columns: false})` attributes every character that a program keeps to the
file its statements say, whatever the prefixes and the texts put in are. Lines may be counted wrongly behind
newlines that are put in (`C44_not_general`, `C45_not_general`); code never comes to stand under another file.
-/

namespace WS
open Spec

/-! ## Spec -/

/-- A text with the file of every character. -/
abbrev Spec.FileMarks := List (Char × Option JVal)

/-- The characters of a source with their files; see `Spec.JLines`. -/
inductive Spec.JFiles (st : List JThing) (made : List JOp) (module_ : Bool) : JSrc → FileMarks → Prop where
  | str (s : List Char) : JFiles st made module_ (.str s) (s.map fun c => (c, none))
  | raw {j : Nat} {v : List Char} : made[j]? = some (.newRaw v) →
      JFiles st made module_ (.obj j) (v.map fun c => (c, none))
  | original {j : Nat} {v n : List Char} : made[j]? = some (.newOriginal v n) →
      JFiles st made module_ (.obj j) (v.map fun c => (c, some (some n)))
  | l2l {j : Nat} {v n o : List Char} : made[j]? = some (.newL2l v n o) →
      JFiles st made module_ (.obj j) (v.map fun c => (c, some (some n)))
  | whole {j : Nat} {v n : List Char} {m : MapArg} {o : Option (List Char)} {i : Option MapArg} :
      made[j]? = some (.newSms v n m o i) → module_ = false →
      JFiles st made module_ (.obj j) (v.map fun c => (c, some (some n)))
  | sms {j : Nat} {v n : List Char} {ss cs ns : List JVal} {mp : List Char} {o : Option (List Char)}
      {i : Option MapArg} {d : LDesc} : made[j]? = some (.newSms v n (.plain ss cs ns mp) o i) →
      module_ = true → mapped v ss ns mp = some d → JFiles st made module_ (.obj j) (files d.marks)
  | prefixed {j : Nat} {p : List Char} {c : JSrc} {m m' : FileMarks} : st[j]? = some (.prefixed p c) →
      JFiles st made module_ c m → WithCopies p m m' → JFiles st made module_ (.obj j) m'
  | replaced {j : Nat} {c : JSrc} {rs : List JRequest} {es : List (JRequest × Nat)} {m m' : FileMarks} :
      st[j]? = some (.replaced c rs) → JFiles st made module_ c m → RightToLeft rs es →
      (∃ ets, Attributed (clipped 0 (es.map fun e => e.1.edit).reverse) ets ∧ m' = spliceL m 0 ets) →
      JFiles st made module_ (.obj j) m'
  | joined {j : Nat} {items : List JSrc} {ms : List FileMarks} :
      st[j]? = some (.joined items) → ms.length = items.length →
      (∀ (k : Nat) (i : JSrc) (m : FileMarks), items[k]? = some i → ms[k]? = some m →
        JFiles st made module_ i m) →
      JFiles st made module_ (.obj j) ms.flatten

/-- What a line map can show of it: text without origin goes with the attributed text before it on its
line. -/
def Spec.seenFiles : Option JVal → FileMarks → FileMarks
  | _, [] => []
  | cur, (c, o) :: rest => (c, o.or cur) :: seenFiles (if c = '\n' then none else o.or cur) rest

/-- The points attribute every character to its file in the list. -/
def Spec.AttributesFiles (l : List JVal) (ps : List Point) (p : Nat × Nat) (m : FileMarks) : Prop :=
  ∀ k c o, m[k]? = some (c, o) →
    (lookup ps (posFromB p ((m.take k).map Prod.fst)).1 (posFromB p ((m.take k).map Prod.fst)).2).map
      (fun x => l[x.source.toNat]?) = o.map some

/-- What is read from the pair: the text, and the file of every character. -/
def Spec.ShowsFiles (w : World) (k : Nat) (m : FileMarks) : Prop :=
  Reads w k .source (.text (m.map Prod.fst)) ∧
  ∃ l s ps, Reads w k .sources (.list l) ∧ Reads w k .mappings (.text s) ∧
    points (idTable l.length) [] s = some ps ∧ AttributesFiles l ps (1, 0) (seenFiles none m)

/-! ## From lines to files -/

theorem files_fst {α β : Type} (m : List (Char × Option (α × β))) : (files m).map Prod.fst = m.map Prod.fst := by
  simp [files, Function.comp_def]

theorem files_plainly (s : List Char) : files (plainly s) = s.map fun c => (c, none) := by
  simp [files, plainly]

theorem files_fromFile (f : JVal) (step : Nat) : ∀ (n : Nat) (s : List Char),
    files (fromFile f step n s) = s.map fun c => (c, some f)
  | _, [] => rfl
  | n, c :: s => by
    rw [fromFile, files, List.map_cons]
    exact congrArg _ (files_fromFile f step _ s)

theorem seenFiles_files : ∀ (m : NamedMarks) (cur : Option (JVal × Nat)),
    seenFiles (cur.map Prod.fst) (files m) = files (seen cur m)
  | [], _ => rfl
  | (c, o) :: m, cur => by
    have e : (o.map Prod.fst).or (cur.map Prod.fst) = (o.or cur).map Prod.fst := by cases o <;> rfl
    have : files ((c, o) :: m) = (c, o.map Prod.fst) :: files m := rfl
    rw [this, seenFiles, seen, e]
    show _ = (c, (o.or cur).map Prod.fst) :: files _
    rw [← seenFiles_files m]
    congr 2
    split <;> rfl

theorem attributesFiles {l : List JVal} {ps : List Point} {p : Nat × Nat} {m : NamedMarks}
    (h : AttributesNamed l ps p m) : AttributesFiles l ps p (files m) := by
  intro k c o hk
  rw [files, List.getElem?_map] at hk
  obtain ⟨⟨c', o'⟩, h1, h2⟩ := Option.map_eq_some_iff.1 hk
  simp only [Prod.mk.injEq] at h2
  obtain ⟨rfl, rfl⟩ := h2
  have h := h k c' o' h1
  have e : ((files m).take k).map Prod.fst = (m.take k).map Prod.fst := by
    rw [files, ← List.map_take, List.map_map]; rfl
  rw [e]
  have := congrArg (Option.map fun y : Option JVal × Nat × Nat × Option Int => y.1) h
  rw [Option.map_map, Option.map_map] at this
  rw [Option.map_map]
  exact this

theorem JLines.files {st : List JThing} {made : List JOp} {mod : Bool} {src : JSrc} {m : NamedMarks}
    (h : JLines st made mod src m) : JFiles st made mod src (Spec.files m) := by
  induction h with
  | str s => rw [files_plainly]; exact .str s
  | raw h => rw [files_plainly]; exact .raw h
  | original h => rw [files_fromFile]; exact .original h
  | l2l h => rw [files_fromFile]; exact .l2l h
  | whole h hm => rw [files_fromFile]; exact .whole h hm
  | sms h hm hd => exact .sms h hm hd
  | prefixed h _ hw _ ih =>
    obtain ⟨mid, h1, h2⟩ := hw
    refine .prefixed h ih ?_
    rw [h2.files]
    exact withCopies_map _ h1
  | replaced h _ hs hw _ ih =>
    obtain ⟨ets, h1, h2⟩ := hw
    refine .replaced h ih hs ⟨_, attributed_map (fun o : Option (JVal × Nat) => o.map Prod.fst) h1, ?_⟩
    rw [h2.files, Spec.files, Spec.files]
    exact spliceL_map _ _ _ _
  | @joined j items ms h hl hk ih =>
    have e : Spec.files ms.flatten = (ms.map Spec.files).flatten := by
      simp only [Spec.files, List.map_flatten]; rfl
    rw [e]
    refine .joined h (by rw [List.length_map]; exact hl) ?_
    intro k i m hi hm
    rw [List.getElem?_map] at hm
    obtain ⟨m', h1, rfl⟩ := Option.map_eq_some_iff.1 hm
    exact ih k i m' hi h1

theorem showsFiles {w : World} {k : Nat} {m : NamedMarks}
    (h : Reads w k .source (.text (m.map Prod.fst)) ∧
      ∃ l s ps, Reads w k .sources (.list l) ∧ Reads w k .mappings (.text s) ∧
        points (idTable l.length) [] s = some ps ∧ AttributesNamed l ps (1, 0) (seen none m)) :
    ShowsFiles w k (files m) := by
  obtain ⟨h1, l, s, ps, h2, h3, h4, h5⟩ := h
  refine ⟨by rw [files_fst]; exact h1, l, s, ps, h2, h3, h4, ?_⟩
  have := seenFiles_files m none
  rw [Option.map_none] at this
  rw [this]
  exact attributesFiles h5

/-! ## The claim -/

/-- C67: maps given to `SourceMapSource`s are ordinary objects that can be read. The pair is read at any
later time, provided it was not given to a `SourceMapSource` or assigned to (C54, C55). Missing: maps
that were emitted before; see `C67_given_partial`. -/
theorem C67_partial (ops more : List JOp) (w w1 w2 : World) (j k : Nat) (module_ : Bool)
    (r : World.run ops = .ok w) (hp : ∀ op ∈ ops, op.Proper) (hr : ∀ op ∈ ops, Spec.JOp.Readable module_ op)
    (e : (JOp.sourceAndMap j false module_).run w = .ok (.pair k, w1)) (e2 : w1.runFrom more = .ok w2)
    (hg : ∀ op ∈ more, ¬ op.gives k) (hset : ∀ a, .set k a ∉ more) :
    ∃ m, JFiles (jthings ops) (jmade ops) module_ (.obj j) m ∧ ShowsFiles w2 k m := by
  obtain ⟨m, h1, h2⟩ := C62_partial ops more w w1 w2 j k module_ r hp hr e e2 hg hset
  exact ⟨files m, JLines.files h1, showsFiles h2⟩

/-- C67 for programs that give emitted maps to `SourceMapSource`s; `made` are the statements with the maps
as they read (C66). -/
theorem C67_given_partial (ops more made : List JOp) (w w1 w2 : World) (j k : Nat) (module_ : Bool)
    (r : World.run ops = .ok w) (hp : ∀ op ∈ ops, op.Proper) (hf : ∀ op ∈ ops, Spec.JOp.FewLines op)
    (hn : NamesFit ops) (hsim : ∀ op ∈ ops, Spec.JOp.Simple op) (hm : MadeFrom World.empty ops made)
    (hst : ∀ op ∈ made, Spec.JOp.Strict op) (hr : ∀ op ∈ made, Spec.JOp.Readable module_ op)
    (e : (JOp.sourceAndMap j false module_).run w = .ok (.pair k, w1)) (e2 : w1.runFrom more = .ok w2)
    (hg : ∀ op ∈ more, ¬ op.gives k) (hset : ∀ a, .set k a ∉ more) :
    ∃ m, JFiles (jthings ops) made module_ (.obj j) m ∧ ShowsFiles w2 k m := by
  obtain ⟨m, h1, h2⟩ := C66_lines_partial ops more made w w1 w2 j k module_ r hp hf hn hsim hm hst hr e e2 hg hset
  exact ⟨files m, JLines.files h1, showsFiles h2⟩

/-! Non-trivial case: newlines in a prefix and in a text put in, on lines that repeat. -/

/-- The program. -/
def c67Program : List JOp :=
  [.newOriginal "a\nb\n".toList "a.js".toList, .newSms "p\nq\n".toList "g.js".toList
     (.plain [some "h.js".toList] [] [] "AAAA;AAAA".toList) none none,
   .newConcat [.obj 0, .str "//\n".toList, .obj 1], .newPrefix "-\n".toList (.obj 2),
   .newReplace (.obj 3), .replace 4 6 6 "B\n\n".toList]

example : (∀ op ∈ c67Program, op.Proper) ∧ ∀ op ∈ c67Program, Spec.JOp.Readable true op := by
  refine ⟨?_, ?_⟩
  · simp [c67Program, JOp.Proper]
    simp only [Spec.Proper]
    decide +kernel
  · intro op h
    simp only [c67Program, List.mem_cons, List.not_mem_nil, or_false] at h
    rcases h with rfl | rfl | rfl | rfl | rfl | rfl
    all_goals first | trivial | exact ⟨_, _, _, _, rfl, fun _ => by decide +kernel⟩

/-- Lines 1 to 6 come from `a.js`, 7 and 8 from nowhere, 9 to 13 from `h.js`. -/
example : ((World.run (c67Program ++ [.sourceAndMap 4 false true])).toOption.map fun w =>
    [JField.source, .sources, .mappings].map fun f => ((JOp.get 0 f).run w).toOption.map Prod.fst) =
    some [some (.field (.text "-\na\n-\nB\n\n\n-\n//\n-\np\n-\nq\n-\n".toList)),
      some (.field (.list [some "a.js".toList, some "h.js".toList])),
      some (.field (.text "AAAA;AAAA;AACA;AAAA;AAAA;AAAA;;;ACDA;AAAA;AAAA;AAAA;AACA;".toList))] := by decide +kernel

end WS
