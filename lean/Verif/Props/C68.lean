import Verif.Props.C67
/-!
# C68: how far the line maps of a program are off

Claim: the map of `sourceAndMap({columns: false})` attributes every character that a program keeps to the
file its statements say, and to the line they say or at most `d` lines further down, where `d` is the number
of `PrefixSource`s and `ReplaceSource`s one in another. So objects without them are exact, and the error that
newlines put in cause (`C44_not_general`, `C45_not_general`) is bounded whatever is put in.
-/

namespace WS
open Spec

/-! ## Spec -/

/-- The characters of a source with the files and lines its statements say, and how many `PrefixSource`s
and `ReplaceSource`s stand one in another; see `Spec.JLines`. -/
inductive Spec.JStated (st : List JThing) (made : List JOp) (module_ : Bool) : JSrc → Nat → NamedMarks → Prop where
  | str (s : List Char) : JStated st made module_ (.str s) 0 (plainly s)
  | raw {j : Nat} {v : List Char} : made[j]? = some (.newRaw v) → JStated st made module_ (.obj j) 0 (plainly v)
  | original {j : Nat} {v n : List Char} : made[j]? = some (.newOriginal v n) →
      JStated st made module_ (.obj j) 0 (fromFile (some n) 1 1 v)
  | l2l {j : Nat} {v n o : List Char} : made[j]? = some (.newL2l v n o) →
      JStated st made module_ (.obj j) 0 (fromFile (some n) 1 1 v)
  | whole {j : Nat} {v n : List Char} {m : MapArg} {o : Option (List Char)} {i : Option MapArg} :
      made[j]? = some (.newSms v n m o i) → module_ = false →
      JStated st made module_ (.obj j) 0 (fromFile (some n) 1 1 v)
  | sms {j : Nat} {v n : List Char} {ss cs ns : List JVal} {mp : List Char} {o : Option (List Char)}
      {i : Option MapArg} {d : LDesc} : made[j]? = some (.newSms v n (.plain ss cs ns mp) o i) →
      module_ = true → mapped v ss ns mp = some d → JStated st made module_ (.obj j) 0 d.marks
  | prefixed {j : Nat} {p : List Char} {c : JSrc} {d : Nat} {m m' : NamedMarks} : st[j]? = some (.prefixed p c) →
      JStated st made module_ c d m → WithCopies p m m' → JStated st made module_ (.obj j) (d + 1) m'
  | replaced {j : Nat} {c : JSrc} {rs : List JRequest} {es : List (JRequest × Nat)} {d : Nat} {m m' : NamedMarks} :
      st[j]? = some (.replaced c rs) → JStated st made module_ c d m → RightToLeft rs es →
      (∃ ets, Attributed (clipped 0 (es.map fun e => e.1.edit).reverse) ets ∧ m' = spliceL m 0 ets) →
      JStated st made module_ (.obj j) (d + 1) m'
  | joined {j : Nat} {items : List JSrc} {dms : List (Nat × NamedMarks)} :
      st[j]? = some (.joined items) → dms.length = items.length →
      (∀ (k : Nat) (i : JSrc) (x : Nat × NamedMarks), items[k]? = some i → dms[k]? = some x →
        JStated st made module_ i x.1 x.2) →
      JStated st made module_ (.obj j) ((dms.map Prod.fst).foldr max 0) (dms.map Prod.snd).flatten

/-- The points attribute every character to its file in the list, and to its line or up to `d` lines further
down. -/
def Spec.AttributesNear (d : Nat) (l : List JVal) (ps : List Point) (p : Nat × Nat) (m : NamedMarks) : Prop :=
  ∀ k c o, m[k]? = some (c, o) →
    NearBy d (o.map fun x => (some x.1, x.2))
      ((lookup ps (posFromB p ((m.take k).map Prod.fst)).1 (posFromB p ((m.take k).map Prod.fst)).2).map
        fun x => (l[x.source.toNat]?, x.line))

/-- What is read from the pair: the text, and about where every character is from. -/
def Spec.ShowsNear (w : World) (k d : Nat) (m : NamedMarks) : Prop :=
  Reads w k .source (.text (m.map Prod.fst)) ∧
  ∃ l s ps, Reads w k .sources (.list l) ∧ Reads w k .mappings (.text s) ∧
    points (idTable l.length) [] s = some ps ∧ AttributesNear d l ps (1, 0) (seen none m)

/-! ## From the lines of the nodes to those of the statements -/

theorem withCopies_near {α : Type} {d : Nat} {p : List Char} {m mid : List (Char × Option (α × Nat))}
    (h : WithCopies p m mid) : ∀ {a : List (Char × Option (α × Nat))}, Nearly d a m →
    ∃ b, WithCopies p a b ∧ Nearly d b mid := by
  induction h with
  | nil =>
    intro a ha
    have : a = [] := List.eq_nil_of_length_eq_zero ha.1.symm
    subst this
    exact ⟨[], .nil, .refl _ _⟩
  | @keep x m mid h ih =>
    intro a ha
    cases a with
    | nil => have := ha.1; simp at this
    | cons y a =>
      obtain ⟨h1, h2⟩ := ha.2 0 y x rfl rfl
      obtain ⟨b, h3, h4⟩ := ih (a := a) ⟨by simpa using ha.1, fun k u v hu hv => ha.2 (k + 1) u v hu hv⟩
      exact ⟨y :: b, .keep y h3, .cons h1 h2 h4⟩
  | copy e h ih =>
    intro a ha
    obtain ⟨b, h3, h4⟩ := ih ha
    exact ⟨_, .copy e h3, (Nearly.refl d _).append h4⟩

theorem spliceL_near {α : Type} {d : Nat} {a m : List (Char × Option (α × Nat))} (h : Nearly d a m) :
    ∀ (ets : List (Edit × List (Char × Option (α × Nat)))) (k : Nat), Nearly d (spliceL a k ets) (spliceL m k ets)
  | [], k => by rw [spliceL, spliceL]; exact h.drop k
  | (e, t) :: ets, k => by
    rw [spliceL, spliceL]
    exact (((h.take _).drop _).append (.refl _ _)).append (spliceL_near h ets _)

theorem seen_near {d : Nat} : ∀ {m m' : NamedMarks} {cur cur' : Option (JVal × Nat)}, Nearly d m m' →
    NearBy d cur cur' → Nearly d (seen cur m) (seen cur' m')
  | [], [], _, _, _, _ => .refl _ _
  | [], _ :: _, _, _, h, _ => by have := h.1; simp at this
  | _ :: _, [], _, _, h, _ => by have := h.1; simp at this
  | (c, o) :: m, (c', o') :: m', cur, cur', h, hc => by
    obtain ⟨rfl, h2⟩ := h.2 0 _ _ rfl rfl
    have h3 : NearBy d (o.or cur) (o'.or cur') := by
      cases o <;> cases o'
      · exact hc
      · exact h2.elim
      · exact h2.elim
      · exact h2
    rw [seen, seen]
    refine .cons rfl h3 (seen_near ⟨by simpa using h.1, fun k u v hu hv => h.2 (k + 1) u v hu hv⟩ ?_)
    split
    · trivial
    · exact h3

theorem each_exists {α : Type} {P : Nat → α → Prop} : ∀ (n : Nat), (∀ k, k < n → ∃ x, P k x) →
    ∃ xs : List α, xs.length = n ∧ ∀ k x, xs[k]? = some x → P k x
  | 0, _ => ⟨[], rfl, fun k x h => by simp at h⟩
  | n + 1, h => by
    obtain ⟨xs, h1, h2⟩ := each_exists n fun k hk => h k (by omega)
    obtain ⟨y, hy⟩ := h n (by omega)
    refine ⟨xs ++ [y], by simp [h1], fun k x hx => ?_⟩
    rw [getElem?_snoc] at hx
    split at hx
    · rename_i hk
      cases hx
      rw [hk, h1]; exact hy
    · exact h2 k x hx

theorem le_foldr_max {d : Nat} : ∀ {ds : List Nat}, d ∈ ds → d ≤ ds.foldr max 0
  | e :: ds, h => by
    rw [List.foldr_cons]
    rcases List.mem_cons.1 h with rfl | h
    · omega
    · have := le_foldr_max h
      omega

theorem nearly_flatten {α : Type} {d : Nat} : ∀ {as bs : List (List (Char × Option (α × Nat)))},
    as.length = bs.length → (∀ (k : Nat) a b, as[k]? = some a → bs[k]? = some b → Nearly d a b) →
    Nearly d as.flatten bs.flatten
  | [], [], _, _ => .refl _ _
  | [], _ :: _, h, _ => by simp at h
  | _ :: _, [], h, _ => by simp at h
  | a :: as, b :: bs, h, hk => by
    rw [List.flatten_cons, List.flatten_cons]
    exact (hk 0 a b rfl rfl).append (nearly_flatten (by simpa using h) fun k => hk (k + 1))

theorem JLines.stated {st : List JThing} {made : List JOp} {mod : Bool} {src : JSrc} {m : NamedMarks}
    (h : JLines st made mod src m) : ∃ d o, JStated st made mod src d o ∧ Nearly d o m := by
  induction h with
  | str s => exact ⟨_, _, .str s, .refl _ _⟩
  | raw h => exact ⟨_, _, .raw h, .refl _ _⟩
  | original h => exact ⟨_, _, .original h, .refl _ _⟩
  | l2l h => exact ⟨_, _, .l2l h, .refl _ _⟩
  | whole h hm => exact ⟨_, _, .whole h hm, .refl _ _⟩
  | sms h hm hd => exact ⟨_, _, .sms h hm hd, .refl _ _⟩
  | prefixed h _ hw _ ih =>
    obtain ⟨d, o, h1, h2⟩ := ih
    obtain ⟨mid, h3, h4⟩ := hw
    obtain ⟨b, h5, h6⟩ := withCopies_near h3 h2
    exact ⟨_, _, .prefixed h h1 h5, h6.trans h4⟩
  | @replaced j c rs es m m' h _ hs hw _ ih =>
    obtain ⟨d, o, h1, h2⟩ := ih
    obtain ⟨ets, h3, h4⟩ := hw
    exact ⟨_, _, .replaced h h1 hs ⟨ets, h3, rfl⟩, (spliceL_near h2 ets 0).trans h4⟩
  | @joined j items ms h hl hk ih =>
    obtain ⟨dms, h1, h2⟩ := each_exists (P := fun k (x : Nat × NamedMarks) => ∃ i m, items[k]? = some i ∧
      ms[k]? = some m ∧ JStated st made mod i x.1 x.2 ∧ Nearly x.1 x.2 m) items.length (by
        intro k hk'
        have e1 : items[k]? = some items[k] := List.getElem?_eq_getElem hk'
        have e2 : ms[k]? = some (ms[k]'(by omega)) := List.getElem?_eq_getElem (by omega)
        obtain ⟨d, o, h3, h4⟩ := ih k _ _ e1 e2
        exact ⟨(d, o), _, _, e1, e2, h3, h4⟩)
    refine ⟨_, _, .joined h h1 ?_, nearly_flatten (by rw [List.length_map, h1, hl]) ?_⟩
    · intro k i x hi hx
      obtain ⟨i', m, a1, a2, a3, a4⟩ := h2 k x hx
      rw [hi] at a1; cases a1; exact a3
    · intro k a b ha hb
      rw [List.getElem?_map] at ha
      obtain ⟨x, hx, rfl⟩ := Option.map_eq_some_iff.1 ha
      obtain ⟨i', m, a1, a2, a3, a4⟩ := h2 k x hx
      rw [hb] at a2; cases a2
      exact a4.mono (le_foldr_max (List.mem_map_of_mem (List.mem_of_getElem? hx)))

theorem showsNear {w : World} {k d : Nat} {o m : NamedMarks} (hn : Nearly d o m)
    (h : Reads w k .source (.text (m.map Prod.fst)) ∧
      ∃ l s ps, Reads w k .sources (.list l) ∧ Reads w k .mappings (.text s) ∧
        points (idTable l.length) [] s = some ps ∧ AttributesNamed l ps (1, 0) (seen none m)) :
    ShowsNear w k d o := by
  obtain ⟨h1, l, s, ps, h2, h3, h4, h5⟩ := h
  refine ⟨by rw [← hn.fst]; exact h1, l, s, ps, h2, h3, h4, ?_⟩
  have hs : Nearly d (seen none o) (seen none m) := seen_near hn trivial
  intro i c x hx
  have hi : i < (seen none m).length := by rw [hs.1]; exact (List.getElem?_eq_some_iff.1 hx).1
  obtain ⟨y, hy⟩ : ∃ y, (seen none m)[i]? = some y := ⟨_, List.getElem?_eq_getElem hi⟩
  have h6 := h5 i y.1 y.2 hy
  have h7 := (hs.2 i _ _ hx hy).2.map some
  rw [(hs.take i).fst] at h6
  have h8 := congrArg (Option.map fun y : Option JVal × Nat × Nat × Option Int => (y.1, y.2.1)) h6
  rw [Option.map_map, Option.map_map] at h8
  have e : ∀ q : Option (JVal × Nat), q.map ((fun y : Option JVal × Nat × Nat × Option Int => (y.1, y.2.1)) ∘
      fun x => (some x.1, x.2, 0, none)) = q.map fun x => (some x.1, x.2) := fun q => rfl
  rw [e] at h8
  rw [← h8] at h7
  exact h7

/-! ## The claim -/

/-- C68: maps given to `SourceMapSource`s are ordinary objects that can be read. The pair is read at any
later time, provided it was not given to a `SourceMapSource` or assigned to (C54, C55). Missing: maps
that were emitted before; see `C68_given_partial`. -/
theorem C68_partial (ops more : List JOp) (w w1 w2 : World) (j k : Nat) (module_ : Bool)
    (r : World.run ops = .ok w) (hp : ∀ op ∈ ops, op.Proper) (hr : ∀ op ∈ ops, Spec.JOp.Readable module_ op)
    (e : (JOp.sourceAndMap j false module_).run w = .ok (.pair k, w1)) (e2 : w1.runFrom more = .ok w2)
    (hg : ∀ op ∈ more, ¬ op.gives k) (hset : ∀ a, .set k a ∉ more) :
    ∃ d o, JStated (jthings ops) (jmade ops) module_ (.obj j) d o ∧ ShowsNear w2 k d o := by
  obtain ⟨m, h1, h2⟩ := C62_partial ops more w w1 w2 j k module_ r hp hr e e2 hg hset
  obtain ⟨d, o, h3, h4⟩ := JLines.stated h1
  exact ⟨d, o, h3, showsNear h4 h2⟩

/-- C68 for programs that give emitted maps to `SourceMapSource`s; `made` are the statements with the maps
as they read (C66). -/
theorem C68_given_partial (ops more made : List JOp) (w w1 w2 : World) (j k : Nat) (module_ : Bool)
    (r : World.run ops = .ok w) (hp : ∀ op ∈ ops, op.Proper) (hf : ∀ op ∈ ops, Spec.JOp.FewLines op)
    (hn : NamesFit ops) (hsim : ∀ op ∈ ops, Spec.JOp.Simple op) (hm : MadeFrom World.empty ops made)
    (hst : ∀ op ∈ made, Spec.JOp.Strict op) (hr : ∀ op ∈ made, Spec.JOp.Readable module_ op)
    (e : (JOp.sourceAndMap j false module_).run w = .ok (.pair k, w1)) (e2 : w1.runFrom more = .ok w2)
    (hg : ∀ op ∈ more, ¬ op.gives k) (hset : ∀ a, .set k a ∉ more) :
    ∃ d o, JStated (jthings ops) made module_ (.obj j) d o ∧ ShowsNear w2 k d o := by
  obtain ⟨m, h1, h2⟩ := C66_lines_partial ops more made w w1 w2 j k module_ r hp hf hn hsim hm hst hr e e2 hg hset
  obtain ⟨d, o, h3, h4⟩ := JLines.stated h1
  exact ⟨d, o, h3, showsNear h4 h2⟩

/-! Non-trivial case: two `ReplaceSource`s put newlines in. The last character is attributed two lines
further down than it is from, so the bound is attained. -/

/-- The program. -/
def c68Program : List JOp :=
  [.newOriginal "x\nabc".toList "a.js".toList, .newReplace (.obj 0), .insert 1 3 "\n".toList,
   .newReplace (.obj 1), .insert 2 5 "\n".toList]

/-- What it says of its last object. -/
def c68Marks : NamedMarks :=
  fromFile (some "a.js".toList) 1 1 "x\na\n".toList ++
    (fromFile (some "a.js".toList) 1 2 "b\n".toList ++ fromFile (some "a.js".toList) 1 2 "c".toList)

example : (∀ op ∈ c68Program, op.Proper) ∧ ∀ op ∈ c68Program, Spec.JOp.Readable true op := by
  refine ⟨?_, ?_⟩
  · simp [c68Program, JOp.Proper]
    simp only [Spec.Proper]
    decide +kernel
  · intro op h
    simp only [c68Program, List.mem_cons, List.not_mem_nil, or_false] at h
    rcases h with rfl | rfl | rfl | rfl | rfl
    all_goals trivial
example : JStated (jthings c68Program) (jmade c68Program) true (.obj 2) 2 c68Marks := by
  have h1 : JStated (jthings c68Program) (jmade c68Program) true (.obj 1) 1
      (fromFile (some "a.js".toList) 1 1 "x\na\n".toList ++ fromFile (some "a.js".toList) 1 2 "bc".toList) :=
    .replaced (c := .obj 0) (rs := [⟨3, 2, "\n".toList⟩]) (es := [(⟨3, 2, "\n".toList⟩, 0)]) (by decide +kernel)
      (.original (v := "x\nabc".toList) (n := "a.js".toList) rfl) ⟨.refl _, by simp⟩
      ⟨[(⟨3, 3, "\n".toList⟩, [('\n', some (some "a.js".toList, 2))])], ⟨by decide +kernel, by decide +kernel⟩,
        by decide +kernel⟩
  exact .replaced (c := .obj 1) (rs := [⟨5, 4, "\n".toList⟩]) (es := [(⟨5, 4, "\n".toList⟩, 0)]) (by decide +kernel)
    h1 ⟨.refl _, by simp⟩
    ⟨[(⟨5, 5, "\n".toList⟩, [('\n', some (some "a.js".toList, 2))])], ⟨by decide +kernel, by decide +kernel⟩,
      by decide +kernel⟩
example : ((World.run (c68Program ++ [.sourceAndMap 2 false true])).toOption.map fun w =>
    [JField.source, .sources, .mappings].map fun f => ((JOp.get 0 f).run w).toOption.map Prod.fst) =
    some [some (.field (.text "x\na\nb\nc".toList)), some (.field (.list [some "a.js".toList])),
      some (.field (.text "AAAA;AACA;AACA;AACA".toList))] := by decide +kernel

/-! Overlapping replacements: of the second there is only left what lies behind the first. -/

/-- The program. -/
def c68Overlapping : List JOp :=
  [.newOriginal "x\nabc\ndef".toList "a.js".toList, .newReplace (.obj 0), .replace 1 3 6 "Q".toList,
   .replace 1 5 7 "R".toList]

example : JStated (jthings c68Overlapping) (jmade c68Overlapping) true (.obj 1) 1
    (fromFile (some "a.js".toList) 1 1 "x\na".toList ++
      ([('Q', some (some "a.js".toList, 2)), ('R', some (some "a.js".toList, 3))] ++
        fromFile (some "a.js".toList) 1 3 "f".toList)) :=
  .replaced (c := .obj 0) (rs := [⟨3, 6, "Q".toList⟩, ⟨5, 7, "R".toList⟩])
    (es := [(⟨5, 7, "R".toList⟩, 1), (⟨3, 6, "Q".toList⟩, 0)]) (by decide +kernel)
    (.original (v := "x\nabc\ndef".toList) (n := "a.js".toList) rfl)
    ⟨.swap _ _ _, by simp [Spec.Before]; decide +kernel⟩
    ⟨[(⟨3, 7, "Q".toList⟩, [('Q', some (some "a.js".toList, 2))]),
      (⟨7, 8, "R".toList⟩, [('R', some (some "a.js".toList, 3))])], ⟨by decide +kernel, by decide +kernel⟩,
      by decide +kernel⟩
example : ((World.run (c68Overlapping ++ [.sourceAndMap 1 false true])).toOption.map fun w =>
    [JField.source, .sources, .mappings].map fun f => ((JOp.get 0 f).run w).toOption.map Prod.fst) =
    some [some (.field (.text "x\naQRf".toList)), some (.field (.list [some "a.js".toList])),
      some (.field (.text "AAAA;AACA,EACA".toList))] := by decide +kernel

end WS
