import Verif.Props.C84
import Verif.Props.C46
import Verif.Proofs.JsLabel
import Verif.Proofs.Sim
import Verif.Proofs.PrefixNode
/-!
# C86: wrapping without change changes nothing

Claim: a `PrefixSource` with an empty prefix, a `ReplaceSource` without requests and the grouping of the items of
`ConcatSource`s, anywhere in an object, make no difference: `source()` and every property of the pair of
`sourceAndMap()` are the same. Nor does it matter whether a prefix is put on at once or in two parts, if the part put
on first has no newline; whether a text is given as a string or as a `RawSource`; nor where texts next to each other
are divided.
-/

namespace WS
open Spec

/-! ## Spec -/

/-- What an object consists of, apart from wrappers that change nothing: texts, sources by themselves, prefixed
and edited code. -/
inductive Spec.Constituent where
  | text (s : List Char)
  | single (j : Nat)
  | prefixed (pre : List Char) (inside : List Constituent)
  | edited (inside : List Constituent) (requests : List JRequest)

/-- The pieces of an object in order; `made` are the constructions. -/
inductive Spec.Constituents (st : List JThing) (made : List JOp) : JSrc → List Constituent → Prop where
  | str (s : List Char) : Constituents st made (.str s) [.text s]
  | single {j : Nat} {v : List Char} {x : List (List Char)} : st[j]? = some (.leaf v x) → Constituents st made (.obj j) [.single j]
  | raw {j : Nat} {v : List Char} {x : List (List Char)} : st[j]? = some (.leaf v x) → made[j]? = some (.newRaw v) →
      Constituents st made (.obj j) (if v = [] then [] else [.text v])
  | bare {j a : Nat} {l : List Constituent} : st[j]? = some (.prefixed [] (.obj a)) → Constituents st made (.obj a) l →
      Constituents st made (.obj j) l
  | prefixed {j a : Nat} {p : List Char} {l : List Constituent} : st[j]? = some (.prefixed p (.obj a)) → p ≠ [] →
      Constituents st made (.obj a) l → Constituents st made (.obj j) [.prefixed p l]
  | nested {j a : Nat} {p q : List Char} {l : List Constituent} : st[j]? = some (.prefixed p (.obj a)) → '\n' ∉ q →
      Constituents st made (.obj a) [.prefixed q l] → Constituents st made (.obj j) [.prefixed (p ++ q) l]
  | unedited {j a : Nat} {l : List Constituent} : st[j]? = some (.replaced (.obj a) []) → Constituents st made (.obj a) l →
      Constituents st made (.obj j) l
  | edited {j a : Nat} {rs : List JRequest} {l : List Constituent} : st[j]? = some (.replaced (.obj a) rs) → rs ≠ [] →
      Constituents st made (.obj a) l → Constituents st made (.obj j) [.edited l rs]
  | joined {j : Nat} {items : List JSrc} {ls : List (List Constituent)} : st[j]? = some (.joined items) →
      ls.length = items.length →
      (∀ (k : Nat) (i : JSrc) (l : List Constituent), items[k]? = some i → ls[k]? = some l → Constituents st made i l) →
      Constituents st made (.obj j) ls.flatten
  | merge {src : JSrc} {xs zs : List Constituent} {a b : List Char} : b ≠ [] →
      Constituents st made src (xs ++ .text a :: .text b :: zs) → Constituents st made src (xs ++ .text (a ++ b) :: zs)

/-- The maps given to `SourceMapSource`s are ordinary objects. -/
def Spec.JOp.PlainMap : JOp → Prop
  | .newSms _ _ map _ _ => ∃ ss cs ns mp, map = .plain ss cs ns mp
  | _ => True

/-! ## Nodes -/

/-- A node without place around others. -/
abbrev around (xs : List SmNode) : SmNode := .node none none none [] xs

/-- Nodes that differ in groupings and in the division of text without place only. -/
inductive Grouped : SmNode → SmNode → Prop where
  | refl (n : SmNode) : Grouped n n
  | symm {a b : SmNode} : Grouped a b → Grouped b a
  | trans {a b c : SmNode} : Grouped a b → Grouped b c → Grouped a c
  | one {x : SmNode} : x.IsNode → Grouped (around [x]) x
  | group (c : List (Int × Int)) (xs ys zs : List SmNode) :
      Grouped (.node none none none c (xs ++ around ys :: zs)) (.node none none none c (xs ++ ys ++ zs))
  | merge (c : List (Int × Int)) (xs zs : List SmNode) (a b : Str) : b ≠ [] →
      Grouped (.node none none none c (xs ++ .str a :: .str b :: zs)) (.node none none none c (xs ++ .str (a ++ b) :: zs))
  | child (p : Option (Nat × Nat)) (s n : Option Int) (c : List (Int × Int)) (xs zs : List SmNode) {a b : SmNode} :
      Grouped a b → Grouped (.node p s n c (xs ++ a :: zs)) (.node p s n c (xs ++ b :: zs))

theorem Grouped.kind {a b : SmNode} (h : Grouped a b) : a = b ∨ a.IsNode ∧ b.IsNode := by
  induction h with
  | refl n => exact .inl rfl
  | symm _ ih => exact ih.imp Eq.symm And.symm
  | trans _ _ h1 h2 =>
    rcases h1 with rfl | h1
    · exact h2
    · rcases h2 with rfl | h2
      · exact .inr h1
      · exact .inr ⟨h1.1, h2.2⟩
  | one h => exact .inr ⟨trivial, h⟩
  | group => exact .inr ⟨trivial, trivial⟩
  | merge => exact .inr ⟨trivial, trivial⟩
  | child => exact .inr ⟨trivial, trivial⟩

theorem walkList_append (p : Option (Nat × Nat)) (s n : Option Int) : ∀ (xs ys : List SmNode) (c : WalkCtx),
    SmNode.walkList p s n (xs ++ ys) c = SmNode.walkList p s n ys (SmNode.walkList p s n xs c)
  | [], _, _ => rfl
  | .str _ :: xs, ys, c => by
    rw [List.cons_append, SmNode.walkList, SmNode.walkList, walkList_append p s n xs]
  | .node .. :: xs, ys, c => by
    rw [List.cons_append, SmNode.walkList, SmNode.walkList, walkList_append p s n xs]

theorem walkList_node (p : Option (Nat × Nat)) (s n : Option Int) {x : SmNode} (h : x.IsNode) (xs : List SmNode)
    (c : WalkCtx) : SmNode.walkList p s n (x :: xs) c = SmNode.walkList p s n xs (x.walk c) := by
  cases x with
  | str => cases h
  | node => rw [SmNode.walkList]

/-- Without a mapping in force no source is remembered. -/
def WalkCtx.Quiet (c : WalkCtx) : Prop := c.active = false → c.lastSource = none

theorem chunkHead_quiet {c : WalkCtx} (h : c.Quiet) (s : Str) (src : Option Int) (pos : Option (Nat × Nat))
    (name : Option Int) : (chunkHead c s src pos name).Quiet := by
  unfold chunkHead
  dsimp only
  split
  · intro e; cases e
  · split
    · intro _; rfl
    · exact h

theorem chunkChars_quiet (src : Option Int) (pos : Option (Nat × Nat)) (name : Option Int) : ∀ (s : Str) {c : WalkCtx},
    c.Quiet → (chunkChars src pos name c s).Quiet
  | [], _, h => h
  | ch :: s, c, h => by
    rw [chunkChars]
    dsimp only
    split
    · refine chunkChars_quiet src pos name s ?_
      split
      · intro _; rfl
      · split
        · exact h
        · exact h
    · exact chunkChars_quiet src pos name s h

theorem contents_quiet : ∀ (l : List (Int × Int)) {c : WalkCtx}, c.Quiet → (l.foldl processContent c).Quiet
  | [], _, h => h
  | _ :: l, _, h => contents_quiet l (c := processContent _ _) h

mutual
  theorem walk_quiet : ∀ (n : SmNode) {c : WalkCtx}, c.Quiet → (n.walk c).Quiet
    | .str s, c, h => by rw [SmNode.walk]; exact chunkChars_quiet _ _ _ _ (chunkHead_quiet h _ _ _ _)
    | .node p s n cs ch, c, h => by rw [SmNode.walk]; exact contents_quiet cs (walkList_quiet p s n ch h)
  theorem walkList_quiet (p : Option (Nat × Nat)) (s n : Option Int) : ∀ (l : List SmNode) {c : WalkCtx}, c.Quiet →
      (SmNode.walkList p s n l c).Quiet
    | [], c, h => by rw [SmNode.walkList]; exact h
    | .str t :: l, c, h => by
      rw [SmNode.walkList]
      exact walkList_quiet p s n l (chunkChars_quiet _ _ _ _ (chunkHead_quiet h _ _ _ _))
    | .node p' s' n' cs ch :: l, c, h => by
      rw [SmNode.walkList]
      exact walkList_quiet p s n l (walk_quiet (.node p' s' n' cs ch) h)
end

/-- The place behind a text. -/
def behind : Nat × Nat → Str → Nat × Nat
  | g, [] => g
  | g, ch :: s => behind (if ch = '\n' then (g.1 + 1, 0) else (g.1, g.2 + 1)) s

theorem behind_append : ∀ (a b : Str) (g : Nat × Nat), behind g (a ++ b) = behind (behind g a) b
  | [], _, _ => rfl
  | _ :: a, b, _ => behind_append a b _

theorem chunkChars_plain : ∀ (s : Str) (c : WalkCtx), c.active = false → c.lastSource = none →
    chunkChars none none none c s = { c with gen := behind c.gen s }
  | [], c, _, _ => rfl
  | ch :: s, c, h1, h2 => by
    rw [chunkChars, behind]
    split
    · dsimp only
      by_cases hs : s.isEmpty = true
      · rw [if_pos hs, chunkChars_plain s _ rfl rfl]
        cases c
        cases h1; cases h2
        rfl
      · rw [if_neg hs, if_neg (by simp [h1])]
        exact chunkChars_plain s { c with gen := (c.gen.1 + 1, 0) } h1 h2
    · exact chunkChars_plain s { c with gen := (c.gen.1, c.gen.2 + 1) } h1 h2

/-- A text without place in two parts. -/
theorem processChunk_merge {c : WalkCtx} (h : c.Quiet) (a b : Str) :
    processChunk (processChunk c a none none none) b none none none = processChunk c (a ++ b) none none none := by
  have key : ∀ s, chunkHead c s none none none = { chunkHead c [] none none none with code := c.code ++ s } := by
    intro s
    unfold chunkHead
    cases h1 : c.active <;> simp [h1]
  have k1 : (chunkHead c [] none none none).active = false := by
    unfold chunkHead
    cases h1 : c.active <;> simp [h1]
  have k2 : (chunkHead c [] none none none).lastSource = none := by
    unfold chunkHead
    cases h1 : c.active
    · simp [h1, h h1]
    · simp [h1]
  unfold processChunk
  rw [key a, key (a ++ b)]
  generalize chunkHead c [] none none none = d at k1 k2
  dsimp only
  rw [chunkChars_plain a { d with code := c.code ++ a } k1 k2,
    chunkChars_plain (a ++ b) { d with code := c.code ++ (a ++ b) } k1 k2]
  have : ∀ (d : WalkCtx) s, d.active = false → chunkHead d s none none none = { d with code := d.code ++ s } := by
    intro d s h
    simp [chunkHead, h]
  rw [this _ _ (by exact k1), chunkChars_plain b _ (by exact k1) (by exact k2)]
  simp only [behind_append, List.append_assoc]

/-- Groupings do not matter for the map. -/
theorem Grouped.walk {a b : SmNode} (h : Grouped a b) : ∀ c : WalkCtx, c.Quiet → a.walk c = b.walk c := by
  induction h with
  | refl => intro c _; rfl
  | symm _ ih => intro c hc; exact (ih c hc).symm
  | trans _ _ h1 h2 => intro c hc; exact (h1 c hc).trans (h2 c hc)
  | one h =>
    intro c _
    rw [SmNode.walk, walkList_node _ _ _ h, SmNode.walkList]
    rfl
  | group c xs ys zs =>
    intro w _
    rw [SmNode.walk, SmNode.walk, walkList_append, List.append_assoc, walkList_append, walkList_append,
      walkList_node _ _ _ (show (around ys).IsNode from trivial), SmNode.walk]
    rfl
  | merge c xs zs a b _ =>
    intro w hw
    rw [SmNode.walk, SmNode.walk, walkList_append, walkList_append, SmNode.walkList, SmNode.walkList, SmNode.walkList,
      processChunk_merge (walkList_quiet _ _ _ _ hw)]
  | @child p s n c xs zs a b h ih =>
    intro w hw
    rw [SmNode.walk, SmNode.walk, walkList_append, walkList_append]
    rcases h.kind with rfl | ⟨h1, h2⟩
    · rfl
    · rw [walkList_node _ _ _ h1, walkList_node _ _ _ h2, ih _ (walkList_quiet _ _ _ _ hw)]

/-- Results of splitting that differ in groupings only. -/
inductive SplitAlike : Except (Int × SmNode) (SmNode × SmNode) → Except (Int × SmNode) (SmNode × SmNode) → Prop where
  | parts {l l' r r' : SmNode} : Grouped l l' → Grouped r r' → SplitAlike (.ok (l, r)) (.ok (l', r'))
  | whole {q : Int} {n n' : SmNode} : Grouped n n' → SplitAlike (.error (q, n)) (.error (q, n'))

/-- Splitting lists one after the other. -/
theorem splitSmList_append : ∀ (xs ys : List SmNode) (pos : Int), splitSmList (xs ++ ys) pos =
    match splitSmList xs pos with
    | .ok (ls, rs) => .ok (ls, rs ++ ys)
    | .error (q, xs') =>
      match splitSmList ys q with
      | .ok (ls, rs) => .ok (xs' ++ ls, rs)
      | .error (q, ls) => .error (q, xs' ++ ls)
  | [], ys, pos => by
    rw [List.nil_append, splitSmList]
    dsimp only
    cases splitSmList ys pos with
    | ok x => rfl
    | error x => rfl
  | x :: xs, ys, pos => by
    rw [List.cons_append, splitSmList, splitSmList]
    cases h : splitSm x pos with
    | ok y => rfl
    | error y =>
      dsimp only
      rw [splitSmList_append xs ys]
      cases h2 : splitSmList xs y.1 with
      | ok z => rfl
      | error z =>
        dsimp only
        cases h3 : splitSmList ys z.1 with
        | ok u => rfl
        | error u => rfl

theorem splitSm_kind {x : SmNode} (h : x.IsNode) (pos : Int) :
    (∀ l r, splitSm x pos = .ok (l, r) → l.IsNode ∧ r.IsNode) ∧
    (∀ q y, splitSm x pos = .error (q, y) → y.IsNode) := by
  cases x with
  | str => cases h
  | node p s n c ch =>
    rw [splitSm]
    cases splitSmList ch pos with
    | ok z => exact ⟨fun l r e => (by cases e; exact ⟨trivial, trivial⟩), fun q y e => (by cases e)⟩
    | error z => exact ⟨fun l r e => (by cases e), fun q y e => (by cases e; trivial)⟩

/-- Splitting a list that begins with a text. -/
theorem splitSmList_text (a : Str) (zs : List SmNode) (q : Int) : splitSmList (.str a :: zs) q =
    if q ≤ 0 then .ok ([.str []], .str a :: zs)
    else if q.toNat ≤ a.length then .ok ([.str (a.take q.toNat)], .str (a.drop q.toNat) :: zs)
    else match splitSmList zs (q - a.length) with
      | .ok (ls, rs) => .ok (.str a :: ls, rs)
      | .error (r, ls) => .error (r, .str a :: ls) := by
  rw [splitSmList, splitSm, splitChars]
  by_cases h1 : q ≤ 0
  · simp only [if_pos h1]
  · by_cases h2 : q.toNat ≤ a.length
    · simp only [if_neg h1, if_pos h2]
    · simp only [if_neg h1, if_neg h2]
      rfl

theorem Grouped.split {a b : SmNode} (h : Grouped a b) : ∀ pos, SplitAlike (splitSm a pos) (splitSm b pos) := by
  induction h with
  | refl n =>
    intro pos
    cases splitSm n pos with
    | ok x => exact .parts (.refl _) (.refl _)
    | error x => exact .whole (.refl _)
  | @symm a b _ ih =>
    intro pos
    have h := ih pos
    generalize splitSm a pos = x at h
    generalize splitSm b pos = y at h
    cases h with
    | parts h1 h2 => exact .parts h1.symm h2.symm
    | whole h => exact .whole h.symm
  | @trans a b c _ _ h1 h2 =>
    intro pos
    have h1 := h1 pos
    have h2 := h2 pos
    generalize splitSm a pos = x at h1
    generalize splitSm b pos = y at h1 h2
    generalize splitSm c pos = z at h2
    cases h1 with
    | parts k1 k2 => cases h2 with | parts k3 k4 => exact .parts (k1.trans k3) (k2.trans k4)
    | whole k1 => cases h2 with | whole k2 => exact .whole (k1.trans k2)
  | @one x h =>
    intro pos
    obtain ⟨k1, k2⟩ := splitSm_kind h pos
    rw [splitSm, splitSmList]
    cases e : splitSm x pos with
    | ok y =>
      obtain ⟨i1, i2⟩ := k1 _ _ e
      exact .parts (.one i1) (.one i2)
    | error y => exact .whole (.one (k2 _ _ e))
  | group c xs ys zs =>
    intro pos
    rw [splitSm, splitSm, splitSmList_append, List.append_assoc, splitSmList_append xs]
    cases h1 : splitSmList xs pos with
    | ok u =>
      dsimp only
      rw [← List.append_assoc]
      exact .parts (.refl _) (.group [] _ _ _)
    | error u =>
      dsimp only
      rw [splitSmList, splitSm, splitSmList_append]
      cases h2 : splitSmList ys u.1 with
      | ok v =>
        have := Grouped.group c u.2 v.1 []
        rw [List.append_nil] at this
        exact .parts this (.group [] [] _ _)
      | error v =>
        dsimp only
        cases h3 : splitSmList zs v.1 with
        | ok t =>
          dsimp only
          rw [← List.append_assoc]
          exact .parts (.group c _ _ _) (.refl _)
        | error t =>
          dsimp only
          rw [← List.append_assoc]
          exact .whole (.group c _ _ _)
  | merge c xs zs a b hb =>
    intro pos
    rw [splitSm, splitSm, splitSmList_append, splitSmList_append xs]
    cases h1 : splitSmList xs pos with
    | ok u => exact .parts (.refl _) (.merge [] _ zs a b hb)
    | error u =>
      dsimp only
      rw [splitSmList_text, splitSmList_text (a ++ b)]
      by_cases c1 : u.1 ≤ 0
      · rw [if_pos c1, if_pos c1]
        exact .parts (.refl _) (.merge [] [] zs a b hb)
      rw [if_neg c1, if_neg c1]
      by_cases c2 : u.1.toNat ≤ a.length
      · rw [if_pos c2, if_pos (by simp; omega), List.take_append_of_le_length c2, List.drop_append_of_le_length c2]
        exact .parts (.refl _) (.merge [] [] zs _ b hb)
      rw [if_neg c2, splitSmList_text, if_neg (by omega)]
      by_cases c3 : (u.1 - a.length).toNat ≤ b.length
      · have c4 : u.1.toNat = a.length + (u.1 - a.length).toNat := by omega
        rw [if_pos c3, if_pos (by simp; omega), c4, List.take_length_add_append, List.drop_length_add_append]
        refine .parts (.merge c _ [] a _ ?_) (.refl _)
        have : b.length ≠ 0 := fun h => hb (List.length_eq_zero_iff.1 h)
        intro h
        have := congrArg List.length h
        rw [List.length_take, List.length_nil] at this
        omega
      rw [if_neg c3, if_neg (by simp; omega), List.length_append,
        show u.1 - a.length - b.length = u.1 - ((a.length + b.length : Nat) : Int) by omega]
      cases h3 : splitSmList zs (u.1 - ((a.length + b.length : Nat) : Int)) with
      | ok t => exact .parts (.merge c _ _ a b hb) (.refl _)
      | error t => exact .whole (.merge c _ _ a b hb)
  | @child p s n c xs zs a b h ih =>
    intro pos
    rw [splitSm, splitSm, splitSmList_append, splitSmList_append xs]
    cases h1 : splitSmList xs pos with
    | ok u => exact .parts (.refl _) (.child p s n [] _ _ h)
    | error u =>
      dsimp only
      rw [splitSmList, splitSmList]
      have := ih u.1
      generalize splitSm a u.1 = x at this
      generalize splitSm b u.1 = y at this
      cases this with
      | parts k1 k2 => exact .parts (.child p s n c _ _ k1) (.child p s n [] [] _ k2)
      | @whole q m m' k =>
        dsimp only
        cases h3 : splitSmList zs q with
        | ok t => exact .parts (.child p s n c _ _ k) (.refl _)
        | error t => exact .whole (.child p s n c _ _ k)

theorem cloneList_append (pre : Str) : ∀ (xs ys : List SmNode) (b : Int), cloneAndPrefixList pre (xs ++ ys) b =
    ((cloneAndPrefixList pre xs b).1 ++ (cloneAndPrefixList pre ys (cloneAndPrefixList pre xs b).2).1,
      (cloneAndPrefixList pre ys (cloneAndPrefixList pre xs b).2).2)
  | [], ys, b => by rw [cloneAndPrefixList]; rfl
  | x :: xs, ys, b => by
    rw [List.cons_append, cloneAndPrefixList, cloneAndPrefixList]
    dsimp only
    rw [cloneList_append pre xs ys]
    rfl

theorem clone_kind (pre : Str) {x : SmNode} (h : x.IsNode) (b : Int) : (cloneAndPrefix pre x b).1.IsNode := by
  cases x with
  | str => cases h
  | node => trivial

theorem cloneList_flag (pre : Str) (xs : List SmNode) (k : Bool) :
    ∃ k', (cloneAndPrefixList pre xs (asInt k)).2 = asInt k' :=
  ⟨_, (cloneAndPrefixList_leaves pre none xs k).2⟩

theorem clone_text (pre s : Str) (k : Bool) :
    cloneAndPrefix pre (.str s) (asInt k) = (.str (makePrefixed s pre k), asInt (endsNl s)) := by
  cases k <;> cases h : endsNl s <;> simp [cloneAndPrefix, asInt, h]

theorem clone_merge (pre a b : Str) (zs : List SmNode) (hb : b ≠ []) (k : Bool) :
    cloneAndPrefixList pre (.str a :: .str b :: zs) (asInt k) =
      (.str (makePrefixed a pre k) :: .str (makePrefixed b pre (endsNl a)) ::
        (cloneAndPrefixList pre zs (asInt (endsNl (a ++ b)))).1, (cloneAndPrefixList pre zs (asInt (endsNl (a ++ b)))).2) := by
  rw [cloneAndPrefixList, clone_text]
  dsimp only
  rw [cloneAndPrefixList, clone_text, endsNl_append a b hb]

theorem Grouped.clone (pre : Str) {a b : SmNode} (h : Grouped a b) : ∀ k : Bool,
    Grouped (cloneAndPrefix pre a (asInt k)).1 (cloneAndPrefix pre b (asInt k)).1 ∧
    (cloneAndPrefix pre a (asInt k)).2 = (cloneAndPrefix pre b (asInt k)).2 := by
  induction h with
  | refl n => intro k; exact ⟨.refl _, rfl⟩
  | symm _ ih => intro k; exact ⟨(ih k).1.symm, (ih k).2.symm⟩
  | trans _ _ h1 h2 => intro k; exact ⟨(h1 k).1.trans (h2 k).1, (h1 k).2.trans (h2 k).2⟩
  | @one x h =>
    intro k
    simp only [cloneAndPrefix, cloneAndPrefixList]
    exact ⟨.one (clone_kind pre h _), trivial⟩
  | group c xs ys zs =>
    intro k
    rw [cloneAndPrefix, cloneAndPrefix, cloneList_append, List.append_assoc, cloneList_append, cloneList_append,
      cloneAndPrefixList, cloneAndPrefix]
    dsimp only
    rw [← List.append_assoc]
    exact ⟨.group c _ _ _, rfl⟩
  | merge c xs zs a b hb =>
    intro k
    obtain ⟨k', hk⟩ := cloneList_flag pre xs k
    rw [cloneAndPrefix, cloneAndPrefix, cloneList_append, cloneList_append, hk, clone_merge pre a b zs hb]
    refine ⟨?_, by rw [cloneAndPrefixList, clone_text]⟩
    rw [cloneAndPrefixList, clone_text]
    have := Grouped.merge c (cloneAndPrefixList pre xs (asInt k)).1
      (cloneAndPrefixList pre zs (asInt (endsNl (a ++ b)))).1 (makePrefixed a pre k') (makePrefixed b pre (endsNl a))
      (makePrefixed_ne _ _ _ hb)
    rw [makePrefixed_append pre a b k' hb] at this
    exact this
  | @child p s n c xs zs a b h ih =>
    intro k
    rw [cloneAndPrefix, cloneAndPrefix, cloneList_append, cloneList_append, cloneAndPrefixList, cloneAndPrefixList]
    dsimp only
    obtain ⟨k', hk⟩ := cloneList_flag pre xs k
    rw [hk]
    obtain ⟨h1, h2⟩ := ih k'
    rw [h2]
    exact ⟨.child p s n c _ _ h1, rfl⟩

/-- Lists of nodes that differ in groupings inside the nodes. -/
inductive GroupedAll : List SmNode → List SmNode → Prop where
  | nil : GroupedAll [] []
  | cons {a b : SmNode} {as bs : List SmNode} : Grouped a b → GroupedAll as bs → GroupedAll (a :: as) (b :: bs)

theorem GroupedAll.refl : ∀ l, GroupedAll l l
  | [] => .nil
  | _ :: l => .cons (.refl _) (refl l)

theorem GroupedAll.around' {as bs : List SmNode} (h : GroupedAll as bs) : ∀ pre : List SmNode,
    Grouped (around (pre ++ as)) (around (pre ++ bs)) := by
  induction h with
  | nil => intro pre; exact .refl _
  | @cons a b as bs h _ ih =>
    intro pre
    refine (Grouped.child none none none [] pre as h).trans ?_
    have := ih (pre ++ [b])
    simpa using this

theorem replacementNode_grouped {a b : SmNode} (h : Grouped a b) (t : Str) :
    replacementNode a t = replacementNode b t := by
  rcases h.kind with rfl | ⟨h1, h2⟩
  · rfl
  · cases a with
    | str => cases h1
    | node =>
      cases b with
      | str => cases h2
      | node =>
        unfold replacementNode
        dsimp only [SmNode.toStringWithGenerator]
        rw [h.walk _ fun _ => rfl]

/-- Stacks, or one and the same exception. -/
inductive StackAlike : M (List SmNode) → M (List SmNode) → Prop where
  | ok {as bs : List SmNode} : GroupedAll as bs → StackAlike (.ok as) (.ok bs)
  | error (e : Panic) : StackAlike (.error e) (.error e)

theorem replNodeLoop_grouped : ∀ (rs : List Repl) {as bs : List SmNode}, GroupedAll as bs →
    StackAlike (replNodeLoop as rs) (replNodeLoop bs rs)
  | [], as, bs, h => by rw [replNodeLoop, replNodeLoop]; exact .ok h
  | r :: rs, _, _, .nil => by rw [replNodeLoop]; exact .error _
  | r :: rs, _, _, .cons (a := a) (b := b) (as := as) (bs := bs) h hs => by
    rw [replNodeLoop, replNodeLoop]
    have h1 := h.split r.stop
    generalize splitSm a r.stop = x at h1
    generalize splitSm b r.stop = y at h1
    cases h1 with
    | @parts l l' q q' k1 k2 =>
      dsimp only
      have h2 := k1.split r.start
      generalize splitSm l r.start = x at h2
      generalize splitSm l' r.start = y at h2
      cases h2 with
      | @parts l2 l2' r2 r2' k3 k4 =>
        dsimp only
        rw [replacementNode_grouped k4]
        cases replacementNode r2' r.text with
        | error e => exact .error e
        | ok n => exact replNodeLoop_grouped rs (.cons k3 (.cons (.refl _) (.cons k2 hs)))
      | whole k3 =>
        dsimp only
        rw [replacementNode_grouped k2]
        cases replacementNode q' r.text with
        | error e => exact .error e
        | ok n => exact replNodeLoop_grouped rs (.cons k3 (.cons (.refl _) (.cons k2 hs)))
    | @whole q m m' k =>
      dsimp only
      have h2 := k.split r.start
      generalize splitSm m r.start = x at h2
      generalize splitSm m' r.start = y at h2
      cases h2 with
      | @parts l2 l2' r2 r2' k3 k4 =>
        dsimp only
        rw [replacementNode_grouped k4]
        cases replacementNode r2' r.text with
        | error e => exact .error e
        | ok n => exact replNodeLoop_grouped rs (.cons k3 (.cons (.refl _) hs))
      | whole k3 => exact replNodeLoop_grouped rs (.cons k3 (.cons (.refl _) hs))

theorem replaceNode_grouped {a b n : SmNode} (h : Grouped a b) (rs : List Repl) (e : replaceNode a rs = .ok n) :
    ∃ n', replaceNode b rs = .ok n' ∧ Grouped n n' := by
  unfold replaceNode at e ⊢
  have := replNodeLoop_grouped rs (.cons h .nil)
  generalize replNodeLoop [a] rs = x at this e
  generalize replNodeLoop [b] rs = y at this
  cases this with
  | ok h => cases e; exact ⟨_, rfl, h.around' []⟩
  | error => cases e

theorem makePrefixed_nothing (s : Str) (b : Bool) : makePrefixed s [] b = s := by
  have : ∀ l : List Str, prefixLoop [] l = l.flatten := by
    intro l
    induction l with
    | nil => rfl
    | cons x l ih => rw [prefixLoop, ih]; simp
  unfold makePrefixed
  rw [this, splitKeep_flatten]
  cases b <;> rfl

mutual
  theorem clone_nothing : ∀ (n : SmNode) (k : Int), (cloneAndPrefix [] n k).1 = n
    | .str s, k => by
      simp only [cloneAndPrefix, makePrefixed_nothing]
      split <;> rfl
    | .node p s n c ch, k => by
      rw [cloneAndPrefix]
      dsimp only
      rw [cloneList_nothing]
  theorem cloneList_nothing : ∀ (l : List SmNode) (k : Int), (cloneAndPrefixList [] l k).1 = l
    | [], k => by rw [cloneAndPrefixList]
    | x :: l, k => by
      rw [cloneAndPrefixList]
      dsimp only
      rw [clone_nothing, cloneList_nothing]
end

/-! ## Two prefixes -/

theorem indentRest_eq_nil {p s : Str} : indentRest p s = [] ↔ s = [] := by
  cases s <;> simp [indentRest]

theorem indentRest_pass {q : Str} (p : Str) (hq : '\n' ∉ q) (s : Str) :
    indentRest p (q ++ s) = q ++ indentRest p s := by
  induction q with
  | nil => rfl
  | cons c q ih =>
    simp only [List.mem_cons, not_or] at hq
    rw [List.cons_append, indentRest, ih hq.2, if_neg (fun h => hq.1 h.1.symm)]
    rfl

theorem indentRest_twice {q : Str} (p : Str) (hq : '\n' ∉ q) (s : Str) :
    indentRest p (indentRest q s) = indentRest (p ++ q) s := by
  induction s with
  | nil => rfl
  | cons c s ih =>
    rw [indentRest, indentRest, indentRest]
    by_cases h : c = '\n' ∧ s ≠ []
    · rw [if_pos h, if_pos ⟨h.1, by simp [indentRest_eq_nil, h.2]⟩, if_pos h, indentRest_pass p hq, ih,
        List.append_assoc]
    · rw [if_neg h, if_neg (by simpa [indentRest_eq_nil] using h), if_neg h, List.nil_append, List.nil_append, ih]; rfl

theorem indent_twice {q : Str} (p : Str) (hq : '\n' ∉ q) (s : Str) : indent p (indent q s) = indent (p ++ q) s := by
  rw [indent, indent, indent, indentRest_pass p hq, indentRest_twice p hq, List.append_assoc]

theorem makePrefixed_twice {q : Str} (p : Str) (hq : '\n' ∉ q) (s : Str) (b : Bool) :
    makePrefixed (makePrefixed s q b) p b = makePrefixed s (p ++ q) b := by
  simp only [makePrefixed, prefixLoop_eq]
  cases b
  · simp [indentRest_twice p hq]
  · simp [indentRest_pass p hq, indentRest_twice p hq]

theorem endsNl_indentRest (q s : Str) : endsNl (indentRest q s) = endsNl s := by
  unfold endsNl
  induction s with
  | nil => rfl
  | cons c s ih =>
    rw [indentRest]
    by_cases hs : s = []
    · subst hs; simp [indentRest]
    · have h1 : indentRest q s ≠ [] := fun h => hs (indentRest_eq_nil.1 h)
      rw [List.getLast?_eq_some_getLast h1, List.getLast?_eq_some_getLast hs] at ih
      simp only [List.getLast?_cons, List.getLast?_append, List.getLast?_eq_some_getLast h1,
        List.getLast?_eq_some_getLast hs, Option.some_or, Option.getD_some]
      exact ih

theorem endsNl_makePrefixed {q : Str} (hq : '\n' ∉ q) (s : Str) (b : Bool) :
    endsNl (makePrefixed s q b) = endsNl s := by
  simp only [makePrefixed, prefixLoop_eq]
  rw [← endsNl_indentRest q s]
  cases b
  · rfl
  · by_cases h : indentRest q s = []
    · rw [h]
      simp only [endsNl, if_true, List.append_nil, List.getLast?_nil]
      have : q.getLast? ≠ some '\n' := fun h => hq (List.mem_of_getLast? h)
      simpa using this
    · simp [endsNl, List.getLast?_append, List.getLast?_eq_some_getLast h]

mutual
  theorem clone_count (p q : Str) : ∀ (n : SmNode) (k : Int), (cloneAndPrefix p n k).2 = (cloneAndPrefix q n k).2
    | .str s, k => by
      simp only [cloneAndPrefix]
      by_cases h : k > 0
      · simp only [if_pos h]
      · simp only [if_neg h]
    | .node pl s n c ch, k => by
      simp only [cloneAndPrefix, cloneList_count p q ch k]
  theorem cloneList_count (p q : Str) : ∀ (l : List SmNode) (k : Int),
      (cloneAndPrefixList p l k).2 = (cloneAndPrefixList q l k).2
    | [], k => by simp only [cloneAndPrefixList]
    | x :: l, k => by
      simp only [cloneAndPrefixList, clone_count p q x k]
      exact cloneList_count p q l _
end

mutual
  theorem clone_twice {q : Str} (p : Str) (hq : '\n' ∉ q) : ∀ (n : SmNode) (k : Int),
      cloneAndPrefix p (cloneAndPrefix q n k).1 k = cloneAndPrefix (p ++ q) n k
    | .str s, k => by
      simp only [cloneAndPrefix]
      by_cases h : k > 0
      · simp only [if_pos h, endsNl_makePrefixed hq, makePrefixed_twice p hq]
      · simp only [if_neg h, endsNl_makePrefixed hq, makePrefixed_twice p hq]
    | .node pl s n c ch, k => by
      simp only [cloneAndPrefix, cloneList_twice p hq ch k]
  theorem cloneList_twice {q : Str} (p : Str) (hq : '\n' ∉ q) : ∀ (l : List SmNode) (k : Int),
      cloneAndPrefixList p (cloneAndPrefixList q l k).1 k = cloneAndPrefixList (p ++ q) l k
    | [], k => by simp only [cloneAndPrefixList]
    | x :: l, k => by
      have h1 := clone_twice p hq x k
      have h2 := clone_count q (p ++ q) x k
      simp only [cloneAndPrefixList, h1, h2, cloneList_twice p hq l]
end

/-! ## Objects -/

mutual
  /-- The node of a constituent, given the nodes of the sources by themselves. -/
  def constNode (f : Nat → M SmNode) : Constituent → M SmNode
    | .text s => .ok (.str s)
    | .single j => f j
    | .prefixed p l => (constNodes f l).map fun xs => prefixNode p (around xs)
    | .edited l rs => (constNodes f l).bind fun xs => replaceNode (around xs) (sortedCalls (rs.map JRequest.call))
  /-- The nodes of several. -/
  def constNodes (f : Nat → M SmNode) : List Constituent → M (List SmNode)
    | [] => .ok []
    | x :: l => (constNode f x).bind fun n => (constNodes f l).map (n :: ·)
end

theorem constNodes_append (f : Nat → M SmNode) : ∀ (l : List Constituent) {xs : List SmNode} {l' : List Constituent}
    {ys : List SmNode}, constNodes f l = .ok xs → constNodes f l' = .ok ys → constNodes f (l ++ l') = .ok (xs ++ ys)
  | [], xs, l', ys, h, h' => by
    rw [constNodes] at h; cases h; exact h'
  | x :: l, xs, l', ys, h, h' => by
    rw [constNodes] at h
    obtain ⟨n, h1, h2⟩ := Except.bind_ok_iff.1 h
    obtain ⟨zs, h3, rfl⟩ := Except.map_ok_iff.1 h2
    rw [List.cons_append, constNodes, h1]
    simp only [Except.bind, constNodes_append f l h3 h', Except.map, List.cons_append]

theorem constNodes_one {f : Nat → M SmNode} {x : Constituent} {n : SmNode} (h : constNode f x = .ok n) :
    constNodes f [x] = .ok [n] := by
  rw [constNodes, h, constNodes]; rfl

/-- Items put together. -/
theorem join_grouped (f : Nat → M SmNode) : ∀ (ns : List SmNode) (ls : List (List Constituent)),
    ls.length = ns.length → (∀ (k : Nat) n l, ns[k]? = some n → ls[k]? = some l →
      ∃ xs, constNodes f l = .ok xs ∧ Grouped (around [n]) (around xs)) →
    ∃ xs, constNodes f ls.flatten = .ok xs ∧ ∀ pre, Grouped (around (pre ++ ns)) (around (pre ++ xs))
  | [], ls, hl, _ => by
    cases ls with
    | nil => exact ⟨[], by rw [List.flatten_nil, constNodes], fun _ => .refl _⟩
    | cons => cases hl
  | n :: ns, ls, hl, h => by
    cases ls with
    | nil => cases hl
    | cons l ls =>
      obtain ⟨xs, h1, h2⟩ := h 0 n l rfl rfl
      obtain ⟨ys, h3, h4⟩ := join_grouped f ns ls (by simpa using hl) (fun k n l a b => h (k + 1) n l a b)
      refine ⟨xs ++ ys, constNodes_append f l h1 h3, fun pre => ?_⟩
      have s1 := (Grouped.group [] pre [n] ns).symm
      have s2 := Grouped.child none none none [] pre ns h2
      have s3 := Grouped.group [] pre xs ns
      have s4 := h4 (pre ++ xs)
      have := ((s1.trans s2).trans s3).trans s4
      simpa using this

theorem itemNode_of_node {cols mod : Bool} {t : Tree} {n : SmNode} (h : t.node cols mod = .ok n) :
    Tree.itemNode cols mod t = .ok n := by
  cases t <;> first | exact h | cases h

theorem Unfolds.leaf_item {A : AHeap} {i : Nat} {t : Tree} (u : Unfolds A (.ref i) t) {cols mod : Bool} {n : SmNode}
    (h : Tree.itemNode cols mod t = .ok n) : t.node cols mod = .ok n := by
  cases u <;> exact h

theorem Unfolds.prefixed_inv {A : AHeap} {i : Nat} {p : Str} {c : Src} {t : Tree} (hA : A[i]? = some (.prefixed p c))
    (u : Unfolds A (.ref i) t) : ∃ t1, t = .prefixed p t1 ∧ Unfolds A c t1 := by
  cases u with
  | prefixed h h1 => rw [hA] at h; cases h; exact ⟨_, rfl, h1⟩
  | raw h | original h | l2l h | sms h | replace h | concat h => rw [hA] at h; cases h

theorem Unfolds.replace_inv {A : AHeap} {i : Nat} {c : Src} {cs : List Call} {t : Tree}
    (hA : A[i]? = some (.replace c cs)) (u : Unfolds A (.ref i) t) : ∃ t1, t = .replace t1 cs ∧ Unfolds A c t1 := by
  cases u with
  | replace h h1 => rw [hA] at h; cases h; exact ⟨_, rfl, h1⟩
  | raw h | original h | l2l h | sms h | prefixed h | concat h => rw [hA] at h; cases h

theorem Unfolds.concat_inv {A : AHeap} {i : Nat} {cs : List Src} {t : Tree}
    (hA : A[i]? = some (.concat cs)) (u : Unfolds A (.ref i) t) : ∃ ts, t = .concat ts ∧ ts.length = cs.length ∧
      ∀ (k : Nat) (c : Src) (t : Tree), cs[k]? = some c → ts[k]? = some t → Unfolds A c t := by
  cases u with
  | concat h h1 h2 => rw [hA] at h; cases h; exact ⟨_, rfl, h1, h2⟩
  | raw h | original h | l2l h | sms h | prefixed h | replace h => rw [hA] at h; cases h

theorem sortedCalls_nil : sortedCalls [] = [] := by decide

theorem constNodes_one_inv {f : Nat → M SmNode} {x : Constituent} {xs : List SmNode} (h : constNodes f [x] = .ok xs) :
    ∃ n, constNode f x = .ok n ∧ xs = [n] := by
  rw [constNodes, constNodes] at h
  obtain ⟨n, h1, h2⟩ := Except.bind_ok_iff.1 h
  cases h2
  exact ⟨n, h1, rfl⟩

/-- A prefix in front of a prefixed node. -/
theorem prefix_twice {p q : Str} {m : SmNode} {ys : List SmNode} (hq : '\n' ∉ q) (hm : m.IsNode)
    (h : Grouped (around [m]) (around [prefixNode q (around ys)])) :
    Grouped (around [prefixNode p m]) (around [prefixNode (p ++ q) (around ys)]) := by
  have h1 : Grouped m (prefixNode q (around ys)) := ((Grouped.one hm).symm.trans h).trans (.one trivial)
  have h2 : Grouped (cloneAndPrefix p m 1).1 (cloneAndPrefix p (prefixNode q (around ys)) 1).1 := (h1.clone p true).1
  have h3 : (cloneAndPrefix p (prefixNode q (around ys)) 1).1 = around [(cloneAndPrefix (p ++ q) (around ys) 1).1] := by
    rw [← clone_twice p hq]
    rfl
  rw [h3] at h2
  refine .child none none none [] [] [] ?_
  exact (Grouped.child none none none [] [] [] h2).trans (.one trivial)

theorem constNodes_split (f : Nat → M SmNode) : ∀ (l l' : List Constituent) {zs : List SmNode},
    constNodes f (l ++ l') = .ok zs → ∃ xs ys, constNodes f l = .ok xs ∧ constNodes f l' = .ok ys ∧ zs = xs ++ ys
  | [], l', zs, h => ⟨[], zs, by rw [constNodes], h, rfl⟩
  | x :: l, l', zs, h => by
    rw [List.cons_append, constNodes] at h
    obtain ⟨n, h1, h2⟩ := Except.bind_ok_iff.1 h
    obtain ⟨us, h3, rfl⟩ := Except.map_ok_iff.1 h2
    obtain ⟨xs, ys, h4, h5, rfl⟩ := constNodes_split f l l' h3
    exact ⟨n :: xs, ys, by rw [constNodes, h1, h4]; rfl, h5, rfl⟩

theorem constNodes_texts {f : Nat → M SmNode} {a b : Str} {l : List Constituent} {xs : List SmNode}
    (h : constNodes f (.text a :: .text b :: l) = .ok xs) :
    ∃ ys, constNodes f l = .ok ys ∧ xs = .str a :: .str b :: ys := by
  rw [constNodes, constNode, constNodes, constNode] at h
  obtain ⟨ys, h1, rfl⟩ := Except.map_ok_iff.1
    (show ((constNodes f l).map (SmNode.str b :: ·)).map (SmNode.str a :: ·) = .ok xs from h)
  obtain ⟨zs, h2, rfl⟩ := Except.map_ok_iff.1 h1
  exact ⟨zs, h2, rfl⟩

/-- The node of a `RawSource`. -/
theorem raw_const (f : Nat → M SmNode) (v : Str) :
    constNodes f (if v = [] then [] else [.text v]) = .ok (if v = [] then [] else [.str v]) ∧
      Grouped (around [rawNode v]) (around (if v = [] then [] else [.str v])) := by
  cases v with
  | nil => exact ⟨by simp [constNodes], .one trivial⟩
  | cons c v => exact ⟨constNodes_one (by rw [constNode]), .one trivial⟩

theorem raw_of {w : World} {A : AHeap} {st : List JThing} {made : List JOp} (I : w.Inv A st) (B : w.Labels made)
    {j : Nat} {v : Str} {o : JObj} (hv : made[j]? = some (.newRaw v)) (ho : w.objs[j]? = some o) :
    A[o.ptr]? = some (.raw v) := by
  have lb := B.each j o.ptr _ (by rw [List.getElem?_map, ho]; rfl) hv
  have D := stepAll_described I.log o.ptr
  rw [show (created w.log)[o.ptr]? = _ from lb] at D
  exact D

/-- The node of an object is that of its constituents up to groupings. -/
theorem constituents_unfolds {w : World} {A : AHeap} {st : List JThing} {made : List JOp} {mod : Bool} (I : w.Inv A st) (B : w.Labels made)
    {f : Nat → M SmNode} (hf : ∀ j o t n, w.objs[j]? = some o → Unfolds A (.ref o.ptr) t →
      t.node true mod = .ok n → f j = .ok n) {src : JSrc} {l : List Constituent} (h : Constituents st made src l) :
    ∀ src' t n, tr (w.objs.map JObj.ptr) src = some src' → Unfolds A src' t → Tree.itemNode true mod t = .ok n →
      ∃ xs, constNodes f l = .ok xs ∧ Grouped (around [n]) (around xs) := by
  -- what a wrapper wraps
  have pre : ∀ {j a : Nat} {p : Str} {src' : Src} {t : Tree} {n : SmNode}, st[j]? = some (.prefixed p (.obj a)) →
      tr (w.objs.map JObj.ptr) (.obj j) = some src' → Unfolds A src' t → Tree.itemNode true mod t = .ok n →
      ∃ src1 t1 m, tr (w.objs.map JObj.ptr) (.obj a) = some src1 ∧ Unfolds A src1 t1 ∧ m.IsNode ∧
        Tree.itemNode true mod t1 = .ok m ∧ n = prefixNode p m := by
    intro j a p src' t n hx e u hn
    obtain ⟨o, ho, sim⟩ := I.sim.get hx
    rw [tr_obj ho] at e; cases e
    generalize o.kind = k at sim
    cases sim with
    | prefixed hA hc =>
      obtain ⟨t1, rfl, u1⟩ := u.prefixed_inv hA
      change Tree.node true mod (.prefixed p t1) = .ok n at hn
      rw [Tree.node] at hn
      obtain ⟨m, h1, rfl⟩ := Except.map_ok_iff.1 hn
      exact ⟨_, t1, m, hc, u1, Tree.node_isNode _ _ _ _ h1, itemNode_of_node h1, rfl⟩
  have rep : ∀ {j a : Nat} {rs : List JRequest} {src' : Src} {t : Tree} {n : SmNode},
      st[j]? = some (.replaced (.obj a) rs) →
      tr (w.objs.map JObj.ptr) (.obj j) = some src' → Unfolds A src' t → Tree.itemNode true mod t = .ok n →
      ∃ src1 t1 m, tr (w.objs.map JObj.ptr) (.obj a) = some src1 ∧ Unfolds A src1 t1 ∧ m.IsNode ∧
        Tree.itemNode true mod t1 = .ok m ∧ replaceNode m (sortedCalls (rs.map JRequest.call)) = .ok n := by
    intro j a p src' t n hx e u hn
    obtain ⟨o, ho, sim⟩ := I.sim.get hx
    rw [tr_obj ho] at e; cases e
    generalize o.kind = k at sim
    cases sim with
    | replaced hA hc =>
      obtain ⟨t1, rfl, u1⟩ := u.replace_inv hA
      change Tree.node true mod (.replace t1 _) = .ok n at hn
      rw [Tree.node] at hn
      obtain ⟨m, h1, h2⟩ := Except.bind_ok_iff.1 hn
      exact ⟨_, t1, m, hc, u1, Tree.node_isNode _ _ _ _ h1, itemNode_of_node h1, h2⟩
  induction h with
  | str s =>
    intro src' t n e u hn
    cases e; cases u; cases hn
    exact ⟨_, constNodes_one (by rw [constNode]), .refl _⟩
  | @single j v x hx =>
    intro src' t n e u hn
    obtain ⟨o, ho, -⟩ := I.sim.get hx
    rw [tr_obj ho] at e; cases e
    exact ⟨_, constNodes_one (by rw [constNode]; exact hf j o t n ho u (u.leaf_item hn)), .refl _⟩
  | @raw j v x hx hv =>
    intro src' t n e u hn
    obtain ⟨o, ho, -⟩ := I.sim.get hx
    rw [tr_obj ho] at e; cases e
    have hA := raw_of I B hv ho
    cases u with
    | raw h =>
      rw [hA] at h; cases h
      change Tree.node true mod (.raw v) = .ok n at hn
      rw [Tree.node] at hn
      cases hn
      exact ⟨_, (raw_const f v).1, (raw_const f v).2⟩
    | original h | l2l h | sms h | prefixed h | replace h | concat h => rw [hA] at h; cases h
  | @merge src xs zs a b hb _ ih =>
    intro src' t n e u hn
    obtain ⟨ys, h1, h2⟩ := ih _ _ _ e u hn
    obtain ⟨us, vs, h3, h4, rfl⟩ := constNodes_split f xs _ h1
    obtain ⟨vs', h5, rfl⟩ := constNodes_texts h4
    refine ⟨us ++ .str (a ++ b) :: vs', constNodes_append f xs h3 ?_, h2.trans (.merge [] us vs' a b hb)⟩
    rw [constNodes, constNode, h5]; rfl
  | @bare j a l hx _ ih =>
    intro src' t n e u hn
    obtain ⟨src1, t1, m, e1, u1, hm, hi, rfl⟩ := pre hx e u hn
    obtain ⟨xs, h1, h2⟩ := ih _ _ _ e1 u1 hi
    refine ⟨xs, h1, ?_⟩
    unfold prefixNode
    rw [clone_nothing]
    exact (Grouped.one (show (around [m]).IsNode from trivial)).trans h2
  | @prefixed j a p l hx _ _ ih =>
    intro src' t n e u hn
    obtain ⟨src1, t1, m, e1, u1, hm, hi, rfl⟩ := pre hx e u hn
    obtain ⟨xs, h1, h2⟩ := ih _ _ _ e1 u1 hi
    refine ⟨[prefixNode p (around xs)], constNodes_one (by rw [constNode, h1]; rfl), ?_⟩
    have hg := ((Grouped.one hm).symm.trans h2).clone p true
    exact .child none none none [] [] [] (.child none none none [] [] [] hg.1)
  | @nested j a p q l hx hq _ ih =>
    intro src' t n e u hn
    obtain ⟨src1, t1, m, e1, u1, hm, hi, rfl⟩ := pre hx e u hn
    obtain ⟨xs, h1, h2⟩ := ih _ _ _ e1 u1 hi
    obtain ⟨n', h3, rfl⟩ := constNodes_one_inv h1
    rw [constNode] at h3
    obtain ⟨ys, h4, rfl⟩ := Except.map_ok_iff.1 h3
    exact ⟨[prefixNode (p ++ q) (around ys)], constNodes_one (by rw [constNode, h4]; rfl), prefix_twice hq hm h2⟩
  | @unedited j a l hx _ ih =>
    intro src' t n e u hn
    obtain ⟨src1, t1, m, e1, u1, hm, hi, hr⟩ := rep hx e u hn
    obtain ⟨xs, h1, h2⟩ := ih _ _ _ e1 u1 hi
    refine ⟨xs, h1, ?_⟩
    rw [List.map_nil, sortedCalls_nil] at hr
    cases hr
    exact (Grouped.one (show (around [m]).IsNode from trivial)).trans h2
  | @edited j a rs l hx _ _ ih =>
    intro src' t n e u hn
    obtain ⟨src1, t1, m, e1, u1, hm, hi, hr⟩ := rep hx e u hn
    obtain ⟨xs, h1, h2⟩ := ih _ _ _ e1 u1 hi
    obtain ⟨n', h3, h4⟩ := replaceNode_grouped ((Grouped.one hm).symm.trans h2) _ hr
    refine ⟨[n'], constNodes_one (by rw [constNode, h1]; exact h3), ?_⟩
    exact .child none none none [] [] [] h4
  | @joined j items ls hx hl _ ih =>
    intro src' t n e u hn
    obtain ⟨o, ho, sim⟩ := I.sim.get hx
    rw [tr_obj ho] at e; cases e
    generalize o.kind = k at sim
    cases sim with
    | @joined cs its is hA hi =>
      obtain ⟨ts, rfl, hlen, hu⟩ := u.concat_inv hA
      have hli : items.length = is.length := by simpa using congrArg List.length hi
      change Tree.node true mod (.concat ts) = .ok n at hn
      rw [Tree.node, Tree.nodes_eq] at hn
      obtain ⟨ns, h1, rfl⟩ := Except.map_ok_iff.1 hn
      obtain ⟨q1, q2⟩ := allM_each h1
      obtain ⟨xs, g1, g2⟩ := join_grouped f ns ls (by omega) fun k n l hk hlk => by
        have hk' : k < ns.length := (List.getElem?_eq_some_iff.1 hk).1
        have e2 : is[k]? = some (is[k]'(by omega)) := List.getElem?_eq_getElem (by omega)
        have e3 : ts[k]? = some (ts[k]'(by omega)) := List.getElem?_eq_getElem (by omega)
        have e1 : items[k]? = some (items[k]'(by omega)) := List.getElem?_eq_getElem (by omega)
        have e4 : tr (w.objs.map JObj.ptr) (items[k]'(by omega)) = some (is[k]'(by omega)) := by
          have := congrArg (fun l => l[k]?) hi
          simpa [List.getElem?_map, e1, e2] using this
        exact ih k _ l e1 hlk _ _ _ e4 (hu k _ _ e2 e3) (q2 k _ _ e3 hk)
      exact ⟨xs, g1, (Grouped.one (show (around ns).IsNode from trivial)).trans (g2 [])⟩

/-! ## Which objects have a node -/

/-- Items put together, the other way. -/
theorem join_exists {A : AHeap} {ptrs : List Nat} {mod : Bool} (f : Nat → M SmNode) :
    ∀ (items : List JSrc) (ls : List (List Constituent)) (xs : List SmNode), ls.length = items.length →
    (∀ (k : Nat) i l, items[k]? = some i → ls[k]? = some l → ∀ xs, constNodes f l = .ok xs → ∃ src t n,
      tr ptrs i = some src ∧ Unfolds A src t ∧ Tree.itemNode true mod t = .ok n ∧ Grouped (around [n]) (around xs)) →
    constNodes f ls.flatten = .ok xs → ∃ (is : List Src) (ts : List Tree) (ns : List SmNode), items.map (tr ptrs) = is.map some ∧ ts.length = is.length ∧
      (∀ (k : Nat) (c : Src) (t : Tree), is[k]? = some c → ts[k]? = some t → Unfolds A c t) ∧
      allM (Tree.itemNode true mod) ts = .ok ns ∧ ∀ pre, Grouped (around (pre ++ ns)) (around (pre ++ xs))
  | [], ls, xs, hl, _, hx => by
    cases ls with
    | cons => cases hl
    | nil =>
      rw [List.flatten_nil, constNodes] at hx
      cases hx
      exact ⟨[], [], [], rfl, rfl, fun k c t h => by simp at h, rfl, fun _ => .refl _⟩
  | i :: items, ls, xs, hl, h, hx => by
    cases ls with
    | nil => cases hl
    | cons l ls =>
      rw [List.flatten_cons] at hx
      obtain ⟨us, vs, h1, h2, rfl⟩ := constNodes_split f l _ hx
      obtain ⟨src, t, n, g1, g2, g3, g4⟩ := h 0 i l rfl rfl us h1
      obtain ⟨is, ts, ns, q1, q2, q3, q4, q5⟩ := join_exists f items ls vs (by simpa using hl)
        (fun k i l a b => h (k + 1) i l a b) h2
      refine ⟨src :: is, t :: ts, n :: ns, by simp [g1, q1], by simp [q2], ?_, by rw [allM, g3, q4]; rfl, ?_⟩
      · intro k c t' hc ht
        cases k with
        | zero => cases hc; cases ht; exact g2
        | succ k => exact q3 k c t' hc ht
      · intro pre
        have s1 := (Grouped.group [] pre [n] ns).symm
        have s2 := Grouped.child none none none [] pre ns g4
        have s3 := Grouped.group [] pre us ns
        have := ((s1.trans s2).trans s3).trans (q5 (pre ++ us))
        simpa using this

/-- An object has a node if its constituents have. -/
theorem constituents_exists {w : World} {A : AHeap} {st : List JThing} {made : List JOp} {mod : Bool} (I : w.Inv A st) (B : w.Labels made)
    {f : Nat → M SmNode} (hf : ∀ j o n, w.objs[j]? = some o → f j = .ok n →
      ∃ t, Unfolds A (.ref o.ptr) t ∧ t.node true mod = .ok n) {src : JSrc} {l : List Constituent}
    (h : Constituents st made src l) : ∀ xs, constNodes f l = .ok xs → ∃ src' t n,
      tr (w.objs.map JObj.ptr) src = some src' ∧ Unfolds A src' t ∧ Tree.itemNode true mod t = .ok n ∧
      Grouped (around [n]) (around xs) := by
  -- what is wrapped is a node
  have nd : ∀ {a : Nat} {src' : Src} {t : Tree} {n : SmNode}, tr (w.objs.map JObj.ptr) (.obj a) = some src' →
      Unfolds A src' t → Tree.itemNode true mod t = .ok n → t.node true mod = .ok n ∧ n.IsNode := by
    intro a src' t n e u hn
    cases src' with
    | str s =>
      simp only [tr] at e
      cases hp : (w.objs.map JObj.ptr)[a]? with
      | none => rw [hp] at e; cases e
      | some p => rw [hp] at e; cases e
    | ref i => exact ⟨u.leaf_item hn, Tree.node_isNode _ _ _ _ (u.leaf_item hn)⟩
  have pre : ∀ {j a : Nat} {p : Str} {src1 : Src} {t1 : Tree} {m : SmNode}, st[j]? = some (.prefixed p (.obj a)) →
      tr (w.objs.map JObj.ptr) (.obj a) = some src1 → Unfolds A src1 t1 → t1.node true mod = .ok m →
      ∃ src' t, tr (w.objs.map JObj.ptr) (.obj j) = some src' ∧ Unfolds A src' t ∧
        Tree.itemNode true mod t = .ok (prefixNode p m) := by
    intro j a p src1 t1 m hx e u hm
    obtain ⟨o, ho, sim⟩ := I.sim.get hx
    generalize hk : o.kind = k at sim
    cases sim with
    | prefixed hA hc =>
      rw [e] at hc; cases hc
      refine ⟨_, _, tr_obj ho, .prefixed hA u, ?_⟩
      change Tree.node true mod (.prefixed p t1) = _
      rw [Tree.node, hm]; rfl
  have rep : ∀ {j a : Nat} {rs : List JRequest} {src1 : Src} {t1 : Tree} {m n : SmNode},
      st[j]? = some (.replaced (.obj a) rs) →
      tr (w.objs.map JObj.ptr) (.obj a) = some src1 → Unfolds A src1 t1 → t1.node true mod = .ok m →
      replaceNode m (sortedCalls (rs.map JRequest.call)) = .ok n →
      ∃ src' t, tr (w.objs.map JObj.ptr) (.obj j) = some src' ∧ Unfolds A src' t ∧
        Tree.itemNode true mod t = .ok n := by
    intro j a rs src1 t1 m n hx e u hm hn
    obtain ⟨o, ho, sim⟩ := I.sim.get hx
    generalize hk : o.kind = k at sim
    cases sim with
    | replaced hA hc =>
      rw [e] at hc; cases hc
      refine ⟨_, _, tr_obj ho, .replace hA u, ?_⟩
      change Tree.node true mod (.replace t1 _) = _
      rw [Tree.node, hm]; exact hn
  induction h with
  | str s =>
    intro xs hx
    obtain ⟨n, h1, rfl⟩ := constNodes_one_inv hx
    rw [constNode] at h1; cases h1
    exact ⟨_, _, _, rfl, .str s, rfl, .refl _⟩
  | @single j v x hs =>
    intro xs hx
    obtain ⟨n, h1, rfl⟩ := constNodes_one_inv hx
    rw [constNode] at h1
    obtain ⟨o, ho, -⟩ := I.sim.get hs
    obtain ⟨t, u, hn⟩ := hf j o n ho h1
    exact ⟨_, t, n, tr_obj ho, u, itemNode_of_node hn, .refl _⟩
  | @raw j v x hs hv =>
    intro xs hx
    obtain ⟨o, ho, -⟩ := I.sim.get hs
    obtain ⟨h1, h2⟩ := raw_const f v
    rw [h1] at hx; cases hx
    exact ⟨_, .raw v, rawNode v, tr_obj ho, .raw (raw_of I B hv ho), by
      change Tree.node true mod (.raw v) = _; rw [Tree.node], h2⟩
  | @merge src xs zs a b hb _ ih =>
    intro ys hy
    obtain ⟨us, vs, h3, h4, rfl⟩ := constNodes_split f xs _ hy
    rw [constNodes, constNode] at h4
    obtain ⟨vs', h5, rfl⟩ := Except.map_ok_iff.1 (show (constNodes f zs).map (SmNode.str (a ++ b) :: ·) = .ok vs from h4)
    obtain ⟨src', t, n, e, u, hn, hg⟩ := ih (us ++ .str a :: .str b :: vs') (constNodes_append f xs h3 (by
      rw [constNodes, constNode, constNodes, constNode, h5]; rfl))
    exact ⟨src', t, n, e, u, hn, hg.trans (.merge [] us vs' a b hb)⟩
  | @bare j a l hs _ ih =>
    intro xs hx
    obtain ⟨src1, t1, m, e1, u1, hi, hg⟩ := ih xs hx
    obtain ⟨hm, -⟩ := nd e1 u1 hi
    obtain ⟨src', t, e, u, hn⟩ := pre hs e1 u1 hm
    refine ⟨src', t, _, e, u, hn, ?_⟩
    unfold prefixNode
    rw [clone_nothing]
    exact (Grouped.one (show (around [m]).IsNode from trivial)).trans hg
  | @prefixed j a p l hs _ _ ih =>
    intro xs hx
    obtain ⟨n, h1, rfl⟩ := constNodes_one_inv hx
    rw [constNode] at h1
    obtain ⟨ys, h2, rfl⟩ := Except.map_ok_iff.1 h1
    obtain ⟨src1, t1, m, e1, u1, hi, hg⟩ := ih ys h2
    obtain ⟨hm, hk⟩ := nd e1 u1 hi
    obtain ⟨src', t, e, u, hn⟩ := pre hs e1 u1 hm
    refine ⟨src', t, _, e, u, hn, ?_⟩
    have hc := ((Grouped.one hk).symm.trans hg).clone p true
    exact .child none none none [] [] [] (.child none none none [] [] [] hc.1)
  | @nested j a p q l hs hq _ ih =>
    intro xs hx
    obtain ⟨n, h1, rfl⟩ := constNodes_one_inv hx
    rw [constNode] at h1
    obtain ⟨ys, h2, rfl⟩ := Except.map_ok_iff.1 h1
    obtain ⟨src1, t1, m, e1, u1, hi, hg⟩ := ih [prefixNode q (around ys)] (constNodes_one (by rw [constNode, h2]; rfl))
    obtain ⟨hm, hk⟩ := nd e1 u1 hi
    obtain ⟨src', t, e, u, hn⟩ := pre hs e1 u1 hm
    exact ⟨src', t, _, e, u, hn, prefix_twice hq hk hg⟩
  | @unedited j a l hs _ ih =>
    intro xs hx
    obtain ⟨src1, t1, m, e1, u1, hi, hg⟩ := ih xs hx
    obtain ⟨hm, -⟩ := nd e1 u1 hi
    obtain ⟨src', t, e, u, hn⟩ := rep (n := around [m]) hs e1 u1 hm (by
      rw [List.map_nil, sortedCalls_nil]; rfl)
    exact ⟨src', t, _, e, u, hn, (Grouped.one (show (around [m]).IsNode from trivial)).trans hg⟩
  | @edited j a rs l hs _ _ ih =>
    intro xs hx
    obtain ⟨n, h1, rfl⟩ := constNodes_one_inv hx
    rw [constNode] at h1
    obtain ⟨ys, h2, h3⟩ := Except.bind_ok_iff.1 h1
    obtain ⟨src1, t1, m, e1, u1, hi, hg⟩ := ih ys h2
    obtain ⟨hm, hk⟩ := nd e1 u1 hi
    obtain ⟨n', h4, h5⟩ := replaceNode_grouped ((Grouped.one hk).symm.trans hg).symm _ h3
    obtain ⟨src', t, e, u, hn⟩ := rep hs e1 u1 hm h4
    exact ⟨src', t, _, e, u, hn, .child none none none [] [] [] h5.symm⟩
  | @joined j items ls hs hl _ ih =>
    intro xs hx
    obtain ⟨o, ho, sim⟩ := I.sim.get hs
    generalize hk : o.kind = k at sim
    cases sim with
    | @joined cs its is' hA hi =>
      obtain ⟨is, ts, ns, q1, q2, q3, q4, q5⟩ := join_exists f items ls xs hl ih hx
      have : is = is' := by
        have := q1.symm.trans hi
        exact (List.map_inj_right (fun (a b : Src) h => Option.some.inj h)).1 this
      subst this
      refine ⟨_, _, around ns, tr_obj ho, .concat hA q2 q3, ?_, (Grouped.one (show (around ns).IsNode from trivial)).trans (q5 [])⟩
      change Tree.node true mod (.concat ts) = _
      rw [Tree.node, Tree.nodes_eq, q4]; rfl

/-! ## Pairs -/

theorem World.emit_node {w w1 : World} {A : AHeap} {st : List JThing} {j k : Nat} {m : Bool} (I : w.Inv A st)
    (hst : A.Stable) (e : (JOp.sourceAndMap j true m).run w = .ok (.pair k, w1)) :
    ∃ o t n, w.objs[j]? = some o ∧ Unfolds A (.ref o.ptr) t ∧ t.node true m = .ok n ∧ k = w.maps.length ∧
      w1.maps = w.maps ++ [Emitted.new ⟨(n.toStringWithGenerator none none).1, none,
        some (n.toStringWithGenerator none none).2⟩ true] ∧ w1.objs = w.objs ∧ w1.Inv A st := by
  simp only [JOp.run] at e
  have I1 := I.emit e
  unfold World.emit at e
  split at e
  · cases e
  rename_i o hob
  split at e
  · cases e
  simp only [if_true, Except.bind_ok_iff] at e
  obtain ⟨⟨a, w3⟩, h1, h2⟩ := e
  dsimp only at h2
  split at h2
  · rename_i n
    simp only [World.call, Op.run] at h1
    cases hn : apiNode w.heap o.ptr true m with
    | error e => rw [hn] at h1; cases h1
    | ok p =>
      rw [hn] at h1; simp only [Except.map] at h1; cases h1; cases h2
      obtain ⟨t, u, ht⟩ := (api_node_iff hst I.abs _ _ _ _).1 ⟨_, hn⟩
      exact ⟨o, t, _, hob, u, ht, rfl, rfl, rfl, I1⟩
  · cases h2

/-- Objects of the same constituents give the same pair. -/
theorem emit_alike {w w1 w2 : World} {A : AHeap} {st : List JThing} {made : List JOp} {i j k k' : Nat} {m : Bool}
    {l : List Constituent} (I : w.Inv A st) (B : w.Labels made) (hst : A.Stable)
    (hi : Constituents st made (.obj i) l) (hj : Constituents st made (.obj j) l)
    (e1 : (JOp.sourceAndMap i true m).run w = .ok (.pair k, w1))
    (e2 : (JOp.sourceAndMap j true m).run w1 = .ok (.pair k', w2)) :
    ∃ e, w2.maps[k]? = some e ∧ w2.maps[k']? = some e := by
  obtain ⟨o, t, n, ho, u, hn, rfl, g1, g2, I1⟩ := World.emit_node I hst e1
  obtain ⟨o', t', n', ho', u', hn', rfl, g1', g2', -⟩ := World.emit_node I1 hst e2
  rw [g2] at ho'
  let f : Nat → M SmNode := fun j => match w.objs[j]? with
    | some o => (apiNode w.heap o.ptr true m).map Prod.fst
    | none => .error .dangling
  have hf : ∀ j o t n, w.objs[j]? = some o → Unfolds A (.ref o.ptr) t → t.node true m = .ok n → f j = .ok n := by
    intro j o t n ho u hn
    obtain ⟨h', e⟩ := (api_node_iff hst I.abs _ _ _ _).2 ⟨t, u, hn⟩
    simp only [f, ho, e]
    rfl
  obtain ⟨xs, q1, q2⟩ := constituents_unfolds I B hf hi _ _ _ (tr_obj ho) u (itemNode_of_node hn)
  obtain ⟨xs', q1', q2'⟩ := constituents_unfolds I B hf hj _ _ _ (tr_obj ho') u' (itemNode_of_node hn')
  rw [q1] at q1'; cases q1'
  have hg : Grouped n n' := (Grouped.one (Tree.node_isNode _ _ _ _ hn)).symm.trans
    ((q2.trans q2'.symm).trans (.one (Tree.node_isNode _ _ _ _ hn')))
  have hr : n.toStringWithGenerator none none = n'.toStringWithGenerator none none := by
    simp only [SmNode.toStringWithGenerator]
    rw [hg.walk _ fun _ => rfl]
  rw [← hr] at g1'
  refine ⟨_, ?_, by rw [g1', List.getElem?_concat_length]⟩
  rw [g1', g1]
  simp

theorem stable_of_plain {ops : List JOp} {w : World} {A : AHeap} (r : World.run ops = .ok w)
    (hA : stepAll [] w.log = .ok A) (hm : ∀ op ∈ ops, Spec.JOp.PlainMap op) : A.Stable := by
  refine stable_of_ops hA fun o ho => ?_
  obtain ⟨-, hlog⟩ := World.run_log r
  obtain ⟨op, hop, hof⟩ := hlog o ho
  cases o <;> try trivial
  obtain ⟨-, n, m, o', i, rfl, -, h1⟩ := hof
  obtain ⟨ss, cs, ns, mp, rfl⟩ := hm _ hop
  obtain ⟨-, d, hd, -⟩ := h1 ss cs ns mp rfl
  exact .inl (by rw [hd]; rfl)

theorem World.emit_same {w w1 w2 : World} {A : AHeap} {st : List JThing} {made : List JOp} {i j k k' : Nat} {m : Bool}
    {l : List Constituent} (I : w.Inv A st) (B : w.Labels made) (hst : A.Stable)
    (hi : Constituents st made (.obj i) l) (hj : Constituents st made (.obj j) l)
    (e1 : (JOp.sourceAndMap i true m).run w = .ok (.pair k, w1))
    (e2 : (JOp.sourceAndMap j true m).run w1 = .ok (.pair k', w2)) (f : JField) (v : JFieldVal) :
    Reads w2 k f v ↔ Reads w2 k' f v := by
  obtain ⟨e, h1, h2⟩ := emit_alike I B hst hi hj e1 e2
  have key : ∀ k, w2.maps[k]? = some e → (Reads w2 k f v ↔ ∃ y, e.get w2 f = .ok (v, y)) := by
    intro k hk
    unfold Reads
    simp only [JOp.run, hk]
    constructor
    · rintro ⟨w', h⟩
      obtain ⟨⟨a, b⟩, h3, h4⟩ := Except.map_ok_iff.1 h
      cases h4
      exact ⟨b, h3⟩
    · rintro ⟨y, h⟩
      rw [h]
      exact ⟨_, rfl⟩
  rw [key k h1, key k' h2]

theorem World.emit_returns {w w1 : World} {A : AHeap} {st : List JThing} {made : List JOp} {i j k : Nat} {m : Bool}
    {l : List Constituent} (I : w.Inv A st) (B : w.Labels made) (hst : A.Stable)
    (hi : Constituents st made (.obj i) l) (hj : Constituents st made (.obj j) l)
    (e1 : (JOp.sourceAndMap i true m).run w = .ok (.pair k, w1)) :
    (∃ w2, (JOp.sourceAndMap j true m).run w1 = .ok (.pair (k + 1), w2)) ∨
      ∃ v, (JOp.sourceAndMap j true m).run w1 = .ok (.textOnly v, w1) := by
  obtain ⟨o, t, n, ho, u, hn, rfl, g1, g2, I1⟩ := World.emit_node I hst e1
  let f : Nat → M SmNode := fun j => match w.objs[j]? with
    | some o => (apiNode w.heap o.ptr true m).map Prod.fst
    | none => .error .dangling
  have hf : ∀ j o n, w.objs[j]? = some o → (f j = .ok n ↔ ∃ t, Unfolds A (.ref o.ptr) t ∧ t.node true m = .ok n) := by
    intro j o n ho
    rw [← api_node_iff hst I.abs]
    simp only [f, ho, Except.map_ok_iff]
    constructor
    · rintro ⟨⟨a, h'⟩, h1, rfl⟩; exact ⟨h', h1⟩
    · rintro ⟨h', h1⟩; exact ⟨_, h1, rfl⟩
  obtain ⟨xs, q1, -⟩ := constituents_unfolds I B (fun j o t n ho u hn => (hf j o n ho).2 ⟨t, u, hn⟩) hi _ _ _
    (tr_obj ho) u (itemNode_of_node hn)
  obtain ⟨src', t', n', e', u', hn', -⟩ := constituents_exists I B (fun j o n ho h => (hf j o n ho).1 h) hj xs q1
  simp only [JOp.run]
  cases ho' : w.objs[j]? with
  | none => simp [tr, ho'] at e'
  | some o' =>
    rw [tr_obj ho'] at e'; cases e'
    have hn' := u'.leaf_item hn'
    obtain ⟨h', e2⟩ := (api_node_iff hst I1.abs _ _ _ _).2 ⟨t', u', hn'⟩
    unfold World.emit
    rw [g2, ho']
    dsimp only
    split
    · exact .inr ⟨_, rfl⟩
    · refine .inl ?_
      simp only [if_true, World.call, Op.run, e2, Except.map, Except.bind]
      rw [g1, List.length_append]
      exact ⟨_, rfl⟩

/-- C86, maps with columns: objects of the same constituents give pairs with the same properties. -/
theorem C86_columns (ops : List JOp) (w w1 w2 : World) (i j k k' : Nat) (m : Bool) (l : List Constituent)
    (r : World.run ops = .ok w) (hp : ∀ op ∈ ops, op.Proper) (hm : ∀ op ∈ ops, Spec.JOp.PlainMap op)
    (hi : Constituents (jthings ops) (jmade ops) (.obj i) l) (hj : Constituents (jthings ops) (jmade ops) (.obj j) l)
    (e1 : (JOp.sourceAndMap i true m).run w = .ok (.pair k, w1))
    (e2 : (JOp.sourceAndMap j true m).run w1 = .ok (.pair k', w2)) (f : JField) (v : JFieldVal) :
    Reads w2 k f v ↔ Reads w2 k' f v := by
  obtain ⟨A, I⟩ := World.run_inv hp r
  exact World.emit_same I (World.run_labels hp r) (stable_of_plain r I.log hm) hi hj e1 e2 f v

/-- C86, maps with columns: if `sourceAndMap()` of one returns a pair, so does that of the other, unless this is
a `RawSource`, whose `sourceAndMap()` has no map. -/
theorem C86_returns (ops : List JOp) (w w1 : World) (i j k : Nat) (m : Bool) (l : List Constituent)
    (r : World.run ops = .ok w) (hp : ∀ op ∈ ops, op.Proper) (hm : ∀ op ∈ ops, Spec.JOp.PlainMap op)
    (hi : Constituents (jthings ops) (jmade ops) (.obj i) l) (hj : Constituents (jthings ops) (jmade ops) (.obj j) l)
    (e1 : (JOp.sourceAndMap i true m).run w = .ok (.pair k, w1)) :
    (∃ w2, (JOp.sourceAndMap j true m).run w1 = .ok (.pair (k + 1), w2)) ∨
      ∃ v, (JOp.sourceAndMap j true m).run w1 = .ok (.textOnly v, w1) := by
  obtain ⟨A, I⟩ := World.run_inv hp r
  exact World.emit_returns I (World.run_labels hp r) (stable_of_plain r I.log hm) hi hj e1

/-! ## Texts -/

mutual
  /-- The text of a constituent. -/
  def constText (st : List JThing) : Constituent → List Char
    | .text s => s
    | .single j => match st[j]? with | some (.leaf v _) => v | _ => []
    | .prefixed p l => indent p (constTexts st l)
    | .edited l rs => applyRight (constTexts st l) ((sortedCalls (rs.map JRequest.call)).map Repl.edit)
  /-- The text of several. -/
  def constTexts (st : List JThing) : List Constituent → List Char
    | [] => []
    | x :: l => constText st x ++ constTexts st l
end

theorem constTexts_one (st : List JThing) (x : Constituent) : constTexts st [x] = constText st x := by
  rw [constTexts, constTexts, List.append_nil]

theorem constTexts_append (st : List JThing) (l l' : List Constituent) :
    constTexts st (l ++ l') = constTexts st l ++ constTexts st l' := by
  induction l with
  | nil => rw [List.nil_append, constTexts]; rfl
  | cons x l ih => rw [List.cons_append, constTexts, constTexts, ih, List.append_assoc]

theorem constTexts_flatten (st : List JThing) : ∀ ls : List (List Constituent),
    constTexts st ls.flatten = (ls.map (constTexts st)).flatten
  | [] => by rw [List.flatten_nil, constTexts]; rfl
  | l :: ls => by
    rw [List.flatten_cons, constTexts_append, constTexts_flatten st ls]
    rfl

theorem indent_nothing (s : List Char) : indent [] s = s := by
  have : ∀ s, indentRest [] s = s := by
    intro s
    induction s with
    | nil => rfl
    | cons c s ih => rw [indentRest, ih]; simp
  rw [indent, this]; rfl

/-- The text of an object is that of its constituents. -/
theorem constituents_text {st : List JThing} {made : List JOp} {src : JSrc} {l : List Constituent} (h : Constituents st made src l) :
    JText st src (constTexts st l) := by
  induction h with
  | str s => rw [constTexts_one, constText]; exact .str s
  | single hx => rw [constTexts_one, constText, hx]; exact .leaf hx
  | @raw j v x hx _ =>
    have h := JText.leaf hx
    cases v with
    | nil => rw [if_pos rfl, constTexts]; exact h
    | cons c v => rw [if_neg (by simp), constTexts_one, constText]; exact h
  | merge _ _ ih =>
    rw [constTexts_append] at ih ⊢
    rw [constTexts, constText] at ih ⊢
    rw [constTexts, constText] at ih
    rwa [List.append_assoc]
  | bare hx _ ih =>
    have := JText.prefixed hx ih
    rwa [indent_nothing] at this
  | prefixed hx _ _ ih => rw [constTexts_one, constText]; exact .prefixed hx ih
  | nested hx hq _ ih =>
    rw [constTexts_one, constText] at ih ⊢
    have := JText.prefixed hx ih
    rwa [indent_twice _ hq] at this
  | unedited hx _ ih => exact JText.replaced (es := []) hx ih ⟨List.Perm.nil, List.Pairwise.nil⟩
  | edited hx _ _ ih =>
    obtain ⟨es, he⟩ := rightToLeft_exists _
    rw [constTexts_one, constText, he.sorted]
    exact .replaced hx ih he
  | joined hx hl _ ih =>
    rw [constTexts_flatten]
    refine .joined hx (by simpa using hl) fun k i s hi hs => ?_
    rw [List.getElem?_map] at hs
    obtain ⟨l, hl', rfl⟩ := Option.map_eq_some_iff.1 hs
    exact ih k i l hi hl'

/-- C86, texts: `source()` of objects of the same constituents returns the same. -/
theorem C86_source (ops : List JOp) (w : World) (i j : Nat) (l : List Constituent)
    (r : World.run ops = .ok w) (hp : ∀ op ∈ ops, op.Proper)
    (hi : Constituents (jthings ops) (jmade ops) (.obj i) l) (hj : Constituents (jthings ops) (jmade ops) (.obj j) l) :
    ∃ s, (∃ w', w.readSource i = .ok (s, w')) ∧ ∃ w', w.readSource j = .ok (s, w') :=
  ⟨_, (C46_source ops w hp r i _).2 (constituents_text hi), (C46_source ops w hp r j _).2 (constituents_text hj)⟩

/-! ## Maps without columns -/

/-- Two lines of one file after each other, in the second of which a newline was put in; the same wrapped. -/
def c86Lines : List JOp :=
  [.newSms "x\n".toList "s.js".toList (.plain [some "h.js".toList] [] [] "AAAA".toList) none none,
   .newReplace (.obj 0),
   .newSms "ab".toList "s.js".toList (.plain [some "h.js".toList] [] [] "AACA".toList) none none,
   .newReplace (.obj 2), .insert 3 1 "\n".toList, .newConcat [.obj 1, .obj 3], .newPrefix [] (.obj 4)]

theorem c86Lines_joined : Constituents (jthings c86Lines) (jmade c86Lines) (.obj 4)
    [.single 0, .edited [.single 2] [⟨1, 0, "\n".toList⟩]] := by
  refine .joined (items := [.obj 1, .obj 3]) (ls := [[.single 0], [.edited [.single 2] [⟨1, 0, "\n".toList⟩]]])
    (by decide +kernel) rfl ?_
  intro k i l hi hl
  match k, hi, hl with
  | 0, hi, hl =>
    cases hi; cases hl
    exact .unedited (a := 0) (by decide +kernel) (.single (v := "x\n".toList) (x := _) rfl)
  | 1, hi, hl =>
    cases hi; cases hl
    exact .edited (a := 2) (by decide +kernel) (by simp) (.single (v := "ab".toList) (x := _) rfl)
  | k + 2, hi, hl => simp at hi

/-- Without columns the maps differ: the `PrefixSource` takes the put in line for the next line of the file. -/
theorem C86_lines_not_general : ∃ l, Constituents (jthings c86Lines) (jmade c86Lines) (.obj 4) l ∧
    Constituents (jthings c86Lines) (jmade c86Lines) (.obj 5) l ∧
    ((World.run c86Lines).toOption.bind fun w => ((JOp.sourceAndMap 4 false true).run w).toOption.bind fun x =>
      ((JOp.sourceAndMap 5 false true).run x.2).toOption.map fun y => (x.1, y.1,
        [0, 1].map fun k => ((JOp.get k .mappings).run y.2).toOption.map Prod.fst)) =
      some (.pair 0, .pair 1, [some (.field (.text "AAAA;AACA;AAAA".toList)),
        some (.field (.text "AAAA;AACA;AACA".toList))]) :=
  ⟨_, c86Lines_joined, .bare (a := 4) (by decide +kernel) c86Lines_joined, by decide +kernel⟩

/-! Non-trivial case: an `OriginalSource` and a text in a `ConcatSource` that is wrapped twice and put behind a text,
and the three side by side; both edited. -/

/-- The program. -/
def c86Program : List JOp :=
  [.newOriginal "a;b\nc".toList "x.js".toList, .newConcat [.obj 0, .str "t\n".toList], .newPrefix [] (.obj 1),
   .newReplace (.obj 2), .newConcat [.str "q".toList, .obj 3],
   .newConcat [.str "q".toList, .obj 0, .str "t\n".toList],
   .newReplace (.obj 4), .replace 6 2 3 "Z".toList, .newReplace (.obj 5), .replace 7 2 3 "Z".toList]

example : (∀ op ∈ c86Program, op.Proper) ∧ ∀ op ∈ c86Program, Spec.JOp.PlainMap op := by
  refine ⟨?_, ?_⟩
  · simp [c86Program, JOp.Proper]
    simp only [Spec.Proper]
    decide +kernel
  · simp [c86Program, Spec.JOp.PlainMap]

theorem c86_single : Constituents (jthings c86Program) (jmade c86Program) (.obj 0) [.single 0] :=
  .single (v := "a;b\nc".toList) (x := _) rfl

example : Constituents (jthings c86Program) (jmade c86Program) (.obj 6)
    [.edited [.text "q".toList, .single 0, .text "t\n".toList] [⟨2, 3, "Z".toList⟩]] := by
  refine .edited (a := 4) (by decide +kernel) (by simp) ?_
  refine .joined (items := [.str "q".toList, .obj 3]) (ls := [[.text "q".toList], [.single 0, .text "t\n".toList]])
    (by decide +kernel) rfl ?_
  intro k i l hi hl
  match k, hi, hl with
  | 0, hi, hl => cases hi; cases hl; exact .str _
  | 1, hi, hl =>
    cases hi; cases hl
    refine .unedited (a := 2) (by decide +kernel) (.bare (a := 1) (by decide +kernel) ?_)
    refine .joined (items := [.obj 0, .str "t\n".toList]) (ls := [[.single 0], [.text "t\n".toList]])
      (by decide +kernel) rfl ?_
    intro k i l hi hl
    match k, hi, hl with
    | 0, hi, hl => cases hi; cases hl; exact c86_single
    | 1, hi, hl => cases hi; cases hl; exact .str _
    | k + 2, hi, hl => simp at hi
  | k + 2, hi, hl => simp at hi

example : Constituents (jthings c86Program) (jmade c86Program) (.obj 7)
    [.edited [.text "q".toList, .single 0, .text "t\n".toList] [⟨2, 3, "Z".toList⟩]] := by
  refine .edited (a := 5) (by decide +kernel) (by simp) ?_
  refine .joined (items := [.str "q".toList, .obj 0, .str "t\n".toList])
    (ls := [[.text "q".toList], [.single 0], [.text "t\n".toList]]) (by decide +kernel) rfl ?_
  intro k i l hi hl
  match k, hi, hl with
  | 0, hi, hl => cases hi; cases hl; exact .str _
  | 1, hi, hl => cases hi; cases hl; exact c86_single
  | 2, hi, hl => cases hi; cases hl; exact .str _
  | k + 3, hi, hl => simp at hi

/-- The pairs. -/
example : ((World.run c86Program).toOption.bind fun w => ((JOp.sourceAndMap 6 true true).run w).toOption.bind fun x =>
    ((JOp.sourceAndMap 7 true true).run x.2).toOption.map fun y => (x.1, y.1,
      [0, 1].map fun k => ((JOp.get k .mappings).run y.2).toOption.map Prod.fst)) =
    some (.pair 0, .pair 1, [some (.field (.text "CAAA,EAAE;AACF,C".toList)),
      some (.field (.text "CAAA,EAAE;AACF,C".toList))]) := by decide +kernel

/-! Non-trivial case: a prefix of two lines in two parts and at once. -/

/-- The program. -/
def c86Nested : List JOp :=
  [.newOriginal "a;b\nc\n".toList "x.js".toList, .newPrefix "  ".toList (.obj 0), .newPrefix "//\n".toList (.obj 1),
   .newPrefix "//\n  ".toList (.obj 0)]

example : (∀ op ∈ c86Nested, op.Proper) ∧ (∀ op ∈ c86Nested, Spec.JOp.PlainMap op) ∧
    Constituents (jthings c86Nested) (jmade c86Nested) (.obj 2) [.prefixed "//\n  ".toList [.single 0]] ∧
    Constituents (jthings c86Nested) (jmade c86Nested) (.obj 3) [.prefixed "//\n  ".toList [.single 0]] := by
  have h0 : Constituents (jthings c86Nested) (jmade c86Nested) (.obj 0) [.single 0] := .single (v := "a;b\nc\n".toList) (x := _) rfl
  refine ⟨?_, ?_, ?_, ?_⟩
  · simp [c86Nested, JOp.Proper]
  · simp [c86Nested, Spec.JOp.PlainMap]
  · exact .nested (a := 1) (p := "//\n".toList) (q := "  ".toList) (by decide +kernel) (by decide)
      (.prefixed (a := 0) (by decide +kernel) (by decide) h0)
  · exact .prefixed (a := 0) (by decide +kernel) (by decide) h0

/-- The pairs. -/
example : ((World.run c86Nested).toOption.bind fun w => ((JOp.sourceAndMap 2 true true).run w).toOption.bind fun x =>
    ((JOp.sourceAndMap 3 true true).run x.2).toOption.map fun y => (x.1, y.1,
      [0, 1].map fun k => ((JOp.get k .mappings).run y.2).toOption.map Prod.fst)) =
    some (.pair 0, .pair 1, [some (.field (.text "AAAA;AAAA,IAAE;AACF;AAAA".toList)),
      some (.field (.text "AAAA;AAAA,IAAE;AACF;AAAA".toList))]) := by decide +kernel

/-- With a newline in the inner prefix the two differ. -/
example : indent ['>'] (indent "a\n".toList ['b']) = ">a\n>b".toList ∧ indent ">a\n".toList ['b'] = ">a\nb".toList := by
  decide +kernel

/-! Non-trivial case: a text in two strings, in a string and a `RawSource`, and in one `RawSource`, in front of an
`OriginalSource`; all prefixed. -/

/-- The program. -/
def c86Texts : List JOp :=
  [.newOriginal "d;e\n".toList "x.js".toList, .newRaw "b\nc".toList, .newRaw "ab\nc".toList, .newRaw [],
   .newConcat [.str "a".toList, .obj 1, .obj 3, .obj 0], .newConcat [.str "ab\n".toList, .str "c".toList, .obj 0],
   .newConcat [.obj 2, .obj 0],
   .newPrefix ">".toList (.obj 4), .newPrefix ">".toList (.obj 5), .newPrefix ">".toList (.obj 6)]

theorem c86Texts_zero : Constituents (jthings c86Texts) (jmade c86Texts) (.obj 0) [.single 0] :=
  .single (v := "d;e\n".toList) (x := _) rfl

example : (∀ op ∈ c86Texts, op.Proper) ∧ ∀ op ∈ c86Texts, Spec.JOp.PlainMap op := by
  refine ⟨?_, ?_⟩
  · simp [c86Texts, JOp.Proper]
  · simp [c86Texts, Spec.JOp.PlainMap]

example : Constituents (jthings c86Texts) (jmade c86Texts) (.obj 7) [.prefixed ">".toList [.text "ab\nc".toList, .single 0]] := by
  refine .prefixed (a := 4) (by decide +kernel) (by decide) ?_
  refine .merge (xs := []) (a := "a".toList) (b := "b\nc".toList) (by decide) ?_
  refine .joined (items := [.str "a".toList, .obj 1, .obj 3, .obj 0])
    (ls := [[.text "a".toList], [.text "b\nc".toList], [], [.single 0]]) (by decide +kernel) rfl ?_
  intro k i l hi hl
  match k, hi, hl with
  | 0, hi, hl => cases hi; cases hl; exact .str _
  | 1, hi, hl => cases hi; cases hl; exact .raw (v := "b\nc".toList) (x := []) rfl rfl
  | 2, hi, hl => cases hi; cases hl; exact .raw (v := []) (x := []) rfl rfl
  | 3, hi, hl => cases hi; cases hl; exact c86Texts_zero
  | k + 4, hi, hl => simp at hi

example : Constituents (jthings c86Texts) (jmade c86Texts) (.obj 8) [.prefixed ">".toList [.text "ab\nc".toList, .single 0]] := by
  refine .prefixed (a := 5) (by decide +kernel) (by decide) ?_
  refine .merge (xs := []) (a := "ab\n".toList) (b := "c".toList) (by decide) ?_
  refine .joined (items := [.str "ab\n".toList, .str "c".toList, .obj 0])
    (ls := [[.text "ab\n".toList], [.text "c".toList], [.single 0]]) (by decide +kernel) rfl ?_
  intro k i l hi hl
  match k, hi, hl with
  | 0, hi, hl => cases hi; cases hl; exact .str _
  | 1, hi, hl => cases hi; cases hl; exact .str _
  | 2, hi, hl => cases hi; cases hl; exact c86Texts_zero
  | k + 3, hi, hl => simp at hi

example : Constituents (jthings c86Texts) (jmade c86Texts) (.obj 9) [.prefixed ">".toList [.text "ab\nc".toList, .single 0]] := by
  refine .prefixed (a := 6) (by decide +kernel) (by decide) ?_
  refine .joined (items := [.obj 2, .obj 0]) (ls := [[.text "ab\nc".toList], [.single 0]]) (by decide +kernel) rfl ?_
  intro k i l hi hl
  match k, hi, hl with
  | 0, hi, hl => cases hi; cases hl; exact .raw (v := "ab\nc".toList) (x := []) rfl rfl
  | 1, hi, hl => cases hi; cases hl; exact c86Texts_zero
  | k + 2, hi, hl => simp at hi

/-- The pairs. -/
example : ((World.run c86Texts).toOption.bind fun w => ((JOp.sourceAndMap 7 true true).run w).toOption.bind fun x =>
    ((JOp.sourceAndMap 8 true true).run x.2).toOption.bind fun y =>
    ((JOp.sourceAndMap 9 true true).run y.2).toOption.map fun z => (x.1, y.1, z.1,
      [0, 1, 2].map fun k => ((JOp.get k .mappings).run z.2).toOption.map Prod.fst)) =
    some (.pair 0, .pair 1, .pair 2, [some (.field (.text ";EAAA,EAAE".toList)),
      some (.field (.text ";EAAA,EAAE".toList)), some (.field (.text ";EAAA,EAAE".toList))]) := by decide +kernel

/-- An empty string after a newline does make a difference: it gets the prefix. -/
example : (SmNode.toStringWithGenerator (prefixNode ['>'] (around [.str "a\n".toList, .str []])) none none).1 =
      ">a\n>".toList ∧
    (SmNode.toStringWithGenerator (prefixNode ['>'] (around [.str "a\n".toList])) none none).1 = ">a\n".toList := by
  decide +kernel

end WS
