import Verif.Proofs.JsLabel
import Verif.Props.C22Lines
import Verif.Props.C45
import Verif.Proofs.Near
/-!
# C62: what the line maps of a program say

Claim: the map of `sourceAndMap({columns: false})` of an object made by a program attributes every
character to the file and line the program's statements say: those of an `OriginalSource`,
`LineToLineMappedSource` or `SourceMapSource` to their file, or to what the map given with them says,
and the characters of other objects to what is said of the objects they are made of.
-/

namespace WS
open Spec

/-! ## Spec: what the statements of a program say -/

/-- The characters of a source with their files and lines. `made[j]` is the statement that made object
`j`, `st[j]` what the later statements made of it. Of a `PrefixSource` it is said that nothing but
copies of the prefix is put in, of a `ReplaceSource` that the named characters are replaced; both up to one
line further down, and exactly if no new lines are put in and no two lines in a row come from the same
line. Requests may overlap: each takes the characters that the ones before it left over. -/
inductive Spec.JLines (st : List JThing) (made : List JOp) (module_ : Bool) : JSrc → NamedMarks → Prop where
  | str (s : List Char) : JLines st made module_ (.str s) (plainly s)
  | raw {j : Nat} {v : List Char} : made[j]? = some (.newRaw v) → JLines st made module_ (.obj j) (plainly v)
  | original {j : Nat} {v n : List Char} : made[j]? = some (.newOriginal v n) →
      JLines st made module_ (.obj j) (fromFile (some n) 1 1 v)
  | l2l {j : Nat} {v n o : List Char} : made[j]? = some (.newL2l v n o) →
      JLines st made module_ (.obj j) (fromFile (some n) 1 1 v)
  | whole {j : Nat} {v n : List Char} {m : MapArg} {o : Option (List Char)} {i : Option MapArg} :
      made[j]? = some (.newSms v n m o i) → module_ = false →
      JLines st made module_ (.obj j) (fromFile (some n) 1 1 v)
  | sms {j : Nat} {v n : List Char} {ss cs ns : List JVal} {mp : List Char} {o : Option (List Char)}
      {i : Option MapArg} {d : LDesc} : made[j]? = some (.newSms v n (.plain ss cs ns mp) o i) →
      module_ = true → mapped v ss ns mp = some d → JLines st made module_ (.obj j) d.marks
  | prefixed {j : Nat} {p : List Char} {c : JSrc} {m m' : NamedMarks} : st[j]? = some (.prefixed p c) →
      JLines st made module_ c m → (∃ mid, WithCopies p m mid ∧ Nearly 1 mid m') →
      ('\n' ∉ p → NoRepeat m → WithCopies p m m') → JLines st made module_ (.obj j) m'
  | replaced {j : Nat} {c : JSrc} {rs : List JRequest} {es : List (JRequest × Nat)} {m m' : NamedMarks} :
      st[j]? = some (.replaced c rs) → JLines st made module_ c m → RightToLeft rs es →
      (∃ ets, Attributed (clipped 0 (es.map fun e => e.1.edit).reverse) ets ∧ Nearly 1 (spliceL m 0 ets) m') →
      ((∀ r ∈ rs, '\n' ∉ r.text) → NoRepeat m →
        ∃ ets, Attributed (clipped 0 (es.map fun e => e.1.edit).reverse) ets ∧ m' = spliceL m 0 ets) →
      JLines st made module_ (.obj j) m'
  | joined {j : Nat} {items : List JSrc} {ms : List NamedMarks} :
      st[j]? = some (.joined items) → ms.length = items.length →
      (∀ (k : Nat) (i : JSrc) (m : NamedMarks), items[k]? = some i → ms[k]? = some m →
        JLines st made module_ i m) →
      JLines st made module_ (.obj j) ms.flatten

/-- Maps are given as ordinary objects that can be read. -/
def Spec.JOp.Readable (module_ : Bool) : JOp → Prop
  | .newSms v _ map _ _ => ∃ ss cs ns mp, map = .plain ss cs ns mp ∧
      (module_ = true → (mapped v ss ns mp).isSome = true)
  | _ => True

/-! ## Renaming -/

/-- Marks by name. -/
def named (t : StrTable JVal) (m : LineMarked) : NamedMarks :=
  m.map fun p => (p.1, p.2.map fun x => (t.name x.1, x.2))

theorem noRepeat_named {t : StrTable JVal} {m : LineMarked} (h : NoRepeat (named t m)) : NoRepeat m := by
  intro x y o c e
  refine h (named t x) (named t y) (t.name o.1, o.2) c ?_
  rw [e]
  simp [named]

/-! ## List maps -/

theorem built_kind {P : Str → Prop} {n : LNode} (h : n.Built P) : n.Kind := by
  induction h with
  | code s => trivial
  | source c _ _ _ => trivial
  | single c _ _ _ => trivial
  | add h hp ih => trivial
  | @merge a b c ha hb hp h iha ihb =>
    cases a <;> cases b <;> simp only [LNode.merge, reduceCtorEq] at h
    · cases h; trivial
    · obtain ⟨x, -, rfl⟩ := Option.map_eq_some_iff.1 h; trivial
    · obtain ⟨x, -, rfl⟩ := Option.map_eq_some_iff.1 h; trivial
    · simp only [LSingle.mergeSingle] at h
      split at h
      · split at h
        · cases h; trivial
        · split at h
          · cases h; trivial
          · cases h
      · cases h
  | @mapped σ f s s' a b ha h ih =>
    cases a <;> simp only [LNode.mapCode, Prod.mk.injEq, Option.some.injEq, reduceCtorEq, false_and] at h
    · obtain ⟨rfl, -⟩ := h; trivial
    · obtain ⟨rfl, -⟩ := h; trivial
  | @line a b ha h ih =>
    cases a with
    | code s => rw [List.mem_singleton.1 h]; trivial
    | single x => rw [List.mem_singleton.1 h]; trivial
    | source x =>
      obtain ⟨l, k, rfl, -⟩ := normLines_mem h
      trivial
    | _ => cases h

/-- A list map stands for the marks. -/
def Stood (t : StrTable JVal) (l : Slm) (m : NamedMarks) : Prop := SlmGood t l ⟨m, false⟩

theorem Stood.of {t : StrTable JVal} {l : Slm} {d : LDesc} (h : SlmGood t l d) : Stood t l d.marks :=
  { built := h.built, lines := h.lines, has := h.has, tidy := (fun h => by cases h), named := h.named }

theorem Stood.from1 {t : StrTable JVal} {l : Slm} {m : NamedMarks} (h : Stood t l m) : SlmFrom1 l := by
  intro n hn
  have h1 := h.lines n hn
  have h2 := built_kind (h.built n hn)
  cases n with
  | source x => exact h1.1
  | single x => exact h1.1
  | code s => trivial
  | _ => exact h2.elim

theorem Stood.marks {t : StrTable JVal} {l : Slm} {m : NamedMarks} (h : Stood t l m) :
    m = named t (piecesMarks (l.map LNode.piece)) := h.named.eq

theorem linesMarks_has {i : Int} {step : Nat} : ∀ {s : Str} {n : Nat}, ∀ p ∈ linesMarks i step n s, ∀ x,
    p.2 = some x → x.1 = i
  | [], _, p, hp => by cases hp
  | c :: s, n, p, hp => by
    rw [linesMarks] at hp
    rcases List.mem_cons.1 hp with rfl | hp
    · intro x hx; cases hx; rfl
    · exact linesMarks_has p hp

theorem stood_of {t : StrTable JVal} {l : Slm} (hb : AllBuilt l) (h1 : SlmFrom1 l)
    (hh : SlmHas (fun s _ => t.Has (s.getD (-1))) l) : Stood t l (named t (piecesMarks (l.map LNode.piece))) := by
  refine { built := hb, lines := ?_, has := hh, tidy := (fun h => by cases h), named := ⟨rfl, ?_⟩ }
  · intro n hn
    have := h1 n hn
    cases n with
    | source x => exact ⟨this, fun _ h => by cases h⟩
    | single x => exact ⟨this, fun _ h => by cases h⟩
    | code s => exact ⟨trivial, fun _ h => by cases h⟩
    | _ => exact this.elim
  · intro p hp x hx
    obtain ⟨q, hq, hp⟩ := List.mem_flatten.1 hp
    obtain ⟨pc, hpc, rfl⟩ := List.mem_map.1 hq
    obtain ⟨n, hn, rfl⟩ := List.mem_map.1 hpc
    have := hh n hn
    cases n with
    | source y =>
      rw [linesMarks_has p hp x hx]; exact this
    | single y =>
      rw [linesMarks_has p hp x hx]; exact this
    | code s =>
      obtain ⟨c, -, rfl⟩ := List.mem_map.1 hp; cases hx
    | str s =>
      obtain ⟨c, -, rfl⟩ := List.mem_map.1 hp; cases hx
    | map s => simp [LNode.piece, Piece.marks] at hp
    | idx s => simp [LNode.piece, Piece.marks] at hp

theorem Stood.prefixed {t : StrTable JVal} {l : Slm} {m : NamedMarks} (h : Stood t l m) (p : Str) :
    ∃ m', Stood t (prefixListMap p l) m' ∧ (∃ mid, WithCopies p m mid ∧ Nearly 1 mid m') ∧
      ('\n' ∉ p → NoRepeat m → WithCopies p m m') := by
  refine ⟨_, stood_of (slmMapGenerated_built _ _ h.built) (slmMapGenerated_from1 h.from1)
    (prefixListMap_in h.has), ?_, fun hp hr => ?_⟩
  · have e := h.marks
    subst e
    obtain ⟨mid, h1, h2⟩ := C44_near p l (fun n hn => (h.built n hn).merged)
    exact ⟨named t mid, withCopies_map _ h1, h2.map _⟩
  · have e := h.marks
    subst e
    exact withCopies_map _ (C44_kept_partial p l hp (fun n hn => (h.built n hn).merged) (noRepeat_named hr))

theorem Stood.replaced {t : StrTable JVal} {l : Slm} {m : NamedMarks} (h : Stood t l m)
    {rs : List JRequest} {es : List (JRequest × Nat)} (he : RightToLeft rs es) :
    ∃ m', Stood t (replaceListMap l (sortedCalls (rs.map JRequest.call))) m' ∧
      (∃ ets, Attributed (clipped 0 (es.map fun e => e.1.edit).reverse) ets ∧ Nearly 1 (spliceL m 0 ets) m') ∧
      ((∀ r ∈ rs, '\n' ∉ r.text) → NoRepeat m →
        ∃ ets, Attributed (clipped 0 (es.map fun e => e.1.edit).reverse) ets ∧ m' = spliceL m 0 ets) := by
  refine ⟨_, stood_of (replaceListMap_built h.built _) (replaceListMap_from1 h.from1 _)
    (replaceListMap_in (StrTable.has_neg t).1 h.has _), ?_, fun ht hr => ?_⟩
  · have e := h.marks
    subst e
    have hs := he.sorted
    obtain ⟨ets, h1, h2⟩ := C45_near l (sortedCalls (rs.map JRequest.call))
      (fun n hn => (h.built n hn).merged)
    rw [hs] at h1
    refine ⟨_, attributed_map (fun o : Option (Int × Nat) => o.map fun x => (t.name x.1, x.2)) h1, ?_⟩
    have := h2.map t.name
    rw [spliceL_map] at this
    exact this
  have e := h.marks
  subst e
  have hs := he.sorted
  obtain ⟨ets, h1, h2⟩ := C45_kept_partial l (sortedCalls (rs.map JRequest.call))
    (fun n hn => (h.built n hn).merged) (noRepeat_named hr) (by
      intro r hr
      have : r.edit ∈ es.map fun e => e.1.edit := by rw [← hs]; exact List.mem_map_of_mem hr
      obtain ⟨q, hq, e⟩ := List.mem_map.1 this
      have hq := (he.perm.mem_iff).1 hq
      have hq := List.mem_zipIdx' (x := q.1) (i := q.2) hq
      have := ht q.1 (by rw [hq.2]; exact List.getElem_mem _)
      have e2 : q.1.text = r.text := congrArg Edit.text e
      rw [← e2]; exact this)
  rw [hs] at h1
  exact ⟨_, attributed_map _ h1, by rw [named, h2]; exact spliceL_map _ _ _ _⟩

/-- What an item stands for. -/
def StoodItem (t : StrTable JVal) : Str ⊕ Slm → NamedMarks → Prop
  | .inl s, m => m = plainly s
  | .inr l, m => Stood t l m

theorem Stood.concat {t : StrTable JVal} : ∀ {xs : List (Str ⊕ Slm)} {ms : List NamedMarks} {l : Slm}
    {m : NamedMarks}, Stood t l m → xs.length = ms.length →
    (∀ (k : Nat) x m, xs[k]? = some x → ms[k]? = some m → StoodItem t x m) →
    Stood t (concatMaps l xs) (m ++ ms.flatten)
  | [], [], l, m, h, _, _ => by simpa [concatMaps] using h
  | [], _ :: _, _, _, _, hl, _ => by simp at hl
  | _ :: _, [], _, _, _, hl, _ => by simp at hl
  | .inl s :: xs, b :: ms, l, m, h, hl, hk => by
    have e : b = plainly s := hk 0 _ _ rfl rfl
    subst e
    have := Stood.concat (Stood.of (h.addStr s none none (StrTable.has_neg t).1 _ rfl)) (xs := xs) (ms := ms)
      (by simpa using hl) (fun k => hk (k + 1))
    rw [concatMaps, List.flatten_cons, ← List.append_assoc]
    exact this
  | .inr x :: xs, b :: ms, l, m, h, hl, hk => by
    have e : Stood t x b := hk 0 _ _ rfl rfl
    have := Stood.concat (Stood.of (h.append e)) (xs := xs) (ms := ms) (by simpa using hl) (fun k => hk (k + 1))
    rw [concatMaps, List.flatten_cons, ← List.append_assoc]
    exact this

theorem Stood.file {t : StrTable JVal} {i : Int} {f : JVal} (h : t.Calls i f) (v : Str) (k : Int) :
    Stood t (slmNewStr v (some i) (some k)) (fromFile f 1 1 v) := by
  have := (SlmGood.nil (t := t) (b := true)).addStr v (some i) (some k) h.1 _ rfl
  have := Stood.of this
  rw [← h.2]
  exact this

theorem Stood.plain {t : StrTable JVal} (v : Str) : Stood t (slmNewStr v none none) (plainly v) :=
  Stood.of ((SlmGood.nil (t := t) (b := true)).addStr v none none (StrTable.has_neg t).1 _ rfl)

theorem allM_each {α β : Type} {f : α → M β} : ∀ {as : List α} {bs : List β}, allM f as = .ok bs →
    bs.length = as.length ∧ ∀ (k : Nat) a b, as[k]? = some a → bs[k]? = some b → f a = .ok b
  | [], bs, h => by cases h; exact ⟨rfl, fun k a b h => by simp at h⟩
  | a :: as, bs, h => by
    rw [allM] at h
    cases ha : f a with
    | error x => rw [ha] at h; cases h
    | ok b =>
      rw [ha] at h
      cases hr : allM f as with
      | error x => rw [hr] at h; cases h
      | ok cs =>
        rw [hr] at h; cases h
        obtain ⟨h1, h2⟩ := allM_each hr
        refine ⟨by simp [h1], fun k x y hx hy => ?_⟩
        cases k with
        | zero => simp at hx hy; subst hx hy; exact ha
        | succ k => exact h2 k x y (by simpa using hx) (by simpa using hy)

/-! ## Objects -/

/-- A statement described by what it made. -/
theorem World.Labels.get {w : World} {made : List JOp} (L : w.Labels made) {j : Nat} {o : JObj}
    (h : w.objs[j]? = some o) : ∃ op, made[j]? = some op ∧ op ∈ made ∧ Label w.strs (created w.log)[o.ptr]? op := by
  have hj : j < made.length := by rw [← L.len]; exact (List.getElem?_eq_some_iff.1 h).1
  exact ⟨made[j], List.getElem?_eq_getElem hj, List.getElem_mem _,
    L.each j o.ptr _ (by rw [List.getElem?_map, h]; rfl) (List.getElem?_eq_getElem hj)⟩

theorem JLines.of_unfolds {w : World} {A : AHeap} {st : List JThing} {made : List JOp} {mod : Bool} (I : w.Inv A st)
    (L : w.Labels made) (hr : ∀ op ∈ made, Spec.JOp.Readable mod op) (hm : ∀ op ∈ made, Spec.JOp.makes op = true)
    {src' : Src} {t : Tree} (u : Unfolds A src' t) :
    ∀ src, tr (w.objs.map JObj.ptr) src = some src' → ∀ x, Tree.itemMap false mod t = .ok x →
      ∃ m, JLines st made mod src m ∧ StoodItem w.strs x m := by
  have leafCase : ∀ (i : Nat) (a : AObj), A[i]? = some a → ∀ src, tr (w.objs.map JObj.ptr) src = some (.ref i) →
      ∃ j op c, src = .obj j ∧ made[j]? = some op ∧ Spec.JOp.Readable mod op ∧ Spec.JOp.makes op = true ∧
        objOf w.log i c = some a ∧ Label w.strs (some c) op := by
    intro i a hA src e
    cases src with
    | str s => cases e
    | obj j =>
      obtain ⟨o, ho, rfl⟩ := tr_obj_inv e
      obtain ⟨op, h1, h2, h3⟩ := L.get ho
      have D := stepAll_described I.log o.ptr
      rw [hA] at D
      cases hc : (created w.log)[o.ptr]? with
      | none => rw [hc] at D; cases D
      | some c =>
        rw [hc] at D h3
        exact ⟨j, op, c, rfl, h1, hr op h2, hm op h2, D.symm, h3⟩
  induction u with
  | str s =>
    intro src e x hx
    cases hx
    cases src with
    | str s' => cases e; exact ⟨_, .str _, rfl⟩
    | obj j =>
      simp only [tr] at e
      cases hp : (w.objs.map JObj.ptr)[j]? with
      | none => rw [hp] at e; cases e
      | some p => rw [hp] at e; cases e
  | raw hA =>
    intro src e x hx
    obtain ⟨j, op, c, rfl, h1, h2, h3, h4, h5⟩ := leafCase _ _ hA src e
    cases c <;> simp [objOf] at h4
    subst h4
    cases hx
    cases op <;> simp [Label, Spec.JOp.makes] at h5 h3
    subst h5
    exact ⟨_, .raw h1, Stood.plain _⟩
  | original hA =>
    intro src e x hx
    obtain ⟨j, op, c, rfl, h1, h2, h3, h4, h5⟩ := leafCase _ _ hA src e
    cases c <;> simp [objOf] at h4
    obtain ⟨rfl, rfl, rfl⟩ := h4
    cases hx
    cases op with
    | newRaw v => cases h5
    | newOriginal v n => obtain ⟨_, _, h5, h6, -⟩ := h5; cases h5; exact ⟨_, .original h1, Stood.file h6.calls _ _⟩
    | newL2l v n o => obtain ⟨_, _, h5, _⟩ := h5; cases h5
    | newSms v n map orig inner => obtain ⟨_, _, _, _, _, h5, _⟩ := h5; cases h5
    | newPrefix p x => obtain ⟨_, h5⟩ := h5; cases h5
    | newReplace x => obtain ⟨_, h5⟩ := h5; cases h5
    | newConcat x => cases h5
    | _ => cases h3
  | l2l hA =>
    intro src e x hx
    obtain ⟨j, op, c, rfl, h1, h2, h3, h4, h5⟩ := leafCase _ _ hA src e
    cases c <;> simp [objOf] at h4
    obtain ⟨rfl, rfl, rfl⟩ := h4
    cases hx
    cases op with
    | newRaw v => cases h5
    | newOriginal v n => obtain ⟨_, _, h5, _⟩ := h5; cases h5
    | newL2l v n o => obtain ⟨_, _, h5, h6, -⟩ := h5; cases h5; exact ⟨_, .l2l h1, Stood.file h6.calls _ _⟩
    | newSms v n map orig inner => obtain ⟨_, _, _, _, _, h5, _⟩ := h5; cases h5
    | newPrefix p x => obtain ⟨_, h5⟩ := h5; cases h5
    | newReplace x => obtain ⟨_, h5⟩ := h5; cases h5
    | newConcat x => cases h5
    | _ => cases h3
  | @sms i s hA =>
    intro src e x hx
    obtain ⟨j, op, c, rfl, h1, h2, h3, h4, h5⟩ := leafCase _ _ hA src e
    cases c <;> simp [objOf] at h4
    subst h4
    cases op with
    | newRaw v => cases h5
    | newOriginal v n => obtain ⟨_, _, h5, _⟩ := h5; cases h5
    | newL2l v n o => obtain ⟨_, _, h5, _⟩ := h5; cases h5
    | newSms v n map orig inner => 
      obtain ⟨vi, ni, hd, o', inn, h5, h6, h7, -, -⟩ := h5
      cases h5
      obtain ⟨ss, cs, ns, mp, rfl, h8⟩ := h2
      obtain ⟨d, hwr, h9, rfl, -⟩ := h7 ss cs ns mp rfl
      obtain ⟨hd', hgd⟩ := hwr.getData
      simp only [Tree.itemMap, Tree.listMap, Sms.listMap, Sms.create] at hx
      cases mod with
      | false =>
        simp only [Bool.not_false, if_true, Except.map, Except.ok.injEq] at hx
        subst hx
        exact ⟨_, .whole h1 rfl, Stood.file h6.calls _ _⟩
      | true =>
        simp only [Bool.not_true, Bool.false_eq_true, if_false, hgd] at hx
        cases hf : slmFromString _ d.sources d.contents d.mappings with
        | error z => rw [hf] at hx; cases hx
        | ok l =>
          rw [hf] at hx
          cases hx
          obtain ⟨dd, hdd⟩ := Option.isSome_iff_exists.1 (h8 rfl)
          exact ⟨_, .sms h1 rfl hdd, Stood.of (SlmGood.fromString h9 hf hdd)⟩
    | newPrefix p x => obtain ⟨_, h5⟩ := h5; cases h5
    | newReplace x => obtain ⟨_, h5⟩ := h5; cases h5
    | newConcat x => cases h5
    | _ => cases h3
  | @prefixed i p c t hA hc ih =>
    intro src e x hx
    cases src with
    | str s => cases e
    | obj j =>
      obtain ⟨o, ho, rfl⟩ := tr_obj_inv e
      obtain ⟨y, hy, sim⟩ := I.sim.get' ho
      generalize o.kind = k at sim
      cases sim with
      | leaf hk hA' ha' => rw [hA] at hA'; cases hA'; cases ha'
      | prefixed hA' hc' =>
        rw [hA] at hA'; cases hA'
        simp only [Tree.itemMap, Tree.listMap] at hx
        cases hl : t.listMap false mod with
        | error z => rw [hl] at hx; cases hx
        | ok l =>
          rw [hl] at hx; cases hx
          have hit : Tree.itemMap false mod t = .ok (.inr l) := by
            cases t <;> first | (simp only [Tree.itemMap, hl]; rfl) | cases hl
          obtain ⟨m, h1, h2⟩ := ih _ hc' _ hit
          obtain ⟨m', h3, h4, h5⟩ := Stood.prefixed h2 p
          exact ⟨m', .prefixed hy h1 h4 h5, h3⟩
      | replaced hA' _ => rw [hA] at hA'; cases hA'
      | joined hA' _ => rw [hA] at hA'; cases hA'
  | @replace i c cs t hA hc ih =>
    intro src e x hx
    cases src with
    | str s => cases e
    | obj j =>
      obtain ⟨o, ho, rfl⟩ := tr_obj_inv e
      obtain ⟨y, hy, sim⟩ := I.sim.get' ho
      generalize o.kind = k at sim
      cases sim with
      | leaf hk hA' ha' => rw [hA] at hA'; cases hA'; cases ha'
      | prefixed hA' hc' => rw [hA] at hA'; cases hA'
      | @replaced _ _ rs hA' hc' =>
        rw [hA] at hA'; cases hA'
        simp only [Tree.itemMap, Tree.listMap] at hx
        cases hl : t.listMap false mod with
        | error z => rw [hl] at hx; cases hx
        | ok l =>
          rw [hl] at hx; cases hx
          have hit : Tree.itemMap false mod t = .ok (.inr l) := by
            cases t <;> first | (simp only [Tree.itemMap, hl]; rfl) | cases hl
          obtain ⟨m, h1, h2⟩ := ih _ hc' _ hit
          obtain ⟨es, he⟩ := rightToLeft_exists rs
          obtain ⟨m', h3, h4, h5⟩ := Stood.replaced h2 he
          exact ⟨m', .replaced hy h1 he h4 h5, h3⟩
      | joined hA' _ => rw [hA] at hA'; cases hA'
  | @concat i is ts hA hl hk ih =>
    intro src e x hx
    cases src with
    | str s => cases e
    | obj j =>
      obtain ⟨o, ho, rfl⟩ := tr_obj_inv e
      obtain ⟨y, hy, sim⟩ := I.sim.get' ho
      generalize o.kind = k at sim
      cases sim with
      | leaf hk hA' ha' => rw [hA] at hA'; cases hA'; cases ha'
      | prefixed hA' hc' => rw [hA] at hA'; cases hA'
      | replaced hA' _ => rw [hA] at hA'; cases hA'
      | @joined cs items is' hA' hi =>
        rw [hA] at hA'; cases hA'
        have hlen : items.length = is.length := by simpa using congrArg List.length hi
        simp only [Tree.itemMap, Tree.listMap, Tree.listMaps_eq] at hx
        cases hxs : allM (Tree.itemMap false mod) ts with
        | error z => rw [hxs] at hx; cases hx
        | ok xs =>
          rw [hxs] at hx; cases hx
          obtain ⟨q1, q2⟩ := allM_each hxs
          have each : ∀ k : Nat, k < items.length → ∃ m, ∃ i x, items[k]? = some i ∧ xs[k]? = some x ∧
              JLines st made mod i m ∧ StoodItem w.strs x m := by
            intro k hk'
            have e2 : is[k]? = some (is[k]'(by omega)) := List.getElem?_eq_getElem (by omega)
            have e3 : ts[k]? = some (ts[k]'(by omega)) := List.getElem?_eq_getElem (by omega)
            have e4 : xs[k]? = some (xs[k]'(by omega)) := List.getElem?_eq_getElem (by omega)
            have e1 : items[k]? = some items[k] := List.getElem?_eq_getElem hk'
            obtain ⟨m, h1, h2⟩ := ih k _ _ e2 e3 items[k] (by
              have := congrArg (fun l => l[k]?) hi
              simpa [List.getElem?_map, e1, e2] using this) _ (q2 k _ _ e3 e4)
            exact ⟨m, _, _, e1, e4, h1, h2⟩
          obtain ⟨ms, h1, h2⟩ : ∃ ms : List NamedMarks, ms.length = items.length ∧ ∀ k m, ms[k]? = some m →
              ∃ i x, items[k]? = some i ∧ xs[k]? = some x ∧ JLines st made mod i m ∧ StoodItem w.strs x m := by
            refine ⟨(List.range items.length).attach.map fun k => Classical.choose (each k.1 (by simpa using k.2)),
              by simp, ?_⟩
            intro k m hm
            rw [List.getElem?_map] at hm
            obtain ⟨k', hk1, rfl⟩ := Option.map_eq_some_iff.1 hm
            have hk2 : k'.1 = k := by
              have := List.getElem?_eq_some_iff.1 hk1
              obtain ⟨ha, hb⟩ := this
              rw [← hb]; simp
            obtain ⟨k', hk3⟩ := k'
            subst hk2
            exact Classical.choose_spec (each k' (by simpa using hk3))
          refine ⟨_, .joined hy h1 ?_, ?_⟩
          · intro k i m hi' hm'
            obtain ⟨i', x, a1, a2, a3, a4⟩ := h2 k m hm'
            rw [hi'] at a1; cases a1; exact a3
          · have := Stood.concat (xs := xs) (ms := ms) (Stood.of (SlmGood.nil (t := w.strs) (b := true)))
              (by omega) (by
                intro k x m hx' hm'
                obtain ⟨i', x', a1, a2, a3, a4⟩ := h2 k m hm'
                rw [hx'] at a2; cases a2; exact a4)
            rw [List.nil_append] at this
            exact this


/-! ## The claim -/

theorem World.emit_lines {st : List JThing} {made : List JOp} {w w1 w2 : World} {A : AHeap}
    {j k : Nat} {module_ : Bool} (I : w.Inv A st) (L : w.Labels made)
    (hst : ∀ o ∈ w.log, Spec.Op.StableMap o) (hr : ∀ op ∈ made, Spec.JOp.Readable module_ op)
    (hmk : ∀ op ∈ made, Spec.JOp.makes op = true)
    (e : (JOp.sourceAndMap j false module_).run w = .ok (.pair k, w1)) (e2 : World.Lasts k w1 w2) :
    ∃ m, JLines st made module_ (.obj j) m ∧
      Reads w2 k .source (.text (m.map Prod.fst)) ∧
      ∃ l s ps, Reads w2 k .sources (.list l) ∧ Reads w2 k .mappings (.text s) ∧
        points (idTable l.length) [] s = some ps ∧ AttributesNamed l ps (1, 0) (seen none m) := by
  simp only [JOp.run] at e
  unfold World.emit at e
  split at e
  · cases e
  rename_i o ho
  split at e
  · cases e
  simp only [Bool.false_eq_true, if_false, Except.bind_ok_iff] at e
  obtain ⟨⟨a, w3⟩, h1, h2⟩ := e
  dsimp only at h2
  split at h2
  · rename_i sl
    have hw3 : w3.strs = w.strs := (World.call_strs h1).1
    obtain ⟨h', hn⟩ : ∃ h', apiListMap w.heap o.ptr false module_ = .ok (sl, h') := by
      simp only [World.call, Op.run] at h1
      cases hn : apiListMap w.heap o.ptr false module_ with
      | error e => rw [hn] at h1; cases h1
      | ok p => rw [hn] at h1; simp only [Except.map] at h1; cases h1; exact ⟨_, rfl⟩
    obtain ⟨t, u, ht⟩ := (api_listMap_iff (stable_of_ops I.log hst) I.abs _ _ _ _).1 ⟨h', hn⟩
    have hit : Tree.itemMap false module_ t = .ok (.inr sl) := by
      cases t <;> first | (simp only [Tree.itemMap, ht]; rfl) | cases ht
    obtain ⟨m, hm1, hm2⟩ := JLines.of_unfolds I L (mod := module_)
      hr hmk u (.obj j)
      (tr_obj ho) _ hit
    cases h2
    have grown : ∃ x, w2.strs.array = w.strs.array ++ x := by
      have := e2.array List.getElem?_concat_length
      rwa [← hw3]
    have tells := fun f => e2 _ (Tells.lasting false (slmToStringWithSourceMap sl none).source
        (slmToStringWithSourceMap sl none).map f) _ List.getElem?_concat_length
        (Tells.new (wm := ⟨(slmToStringWithSourceMap sl none).source,
          some (slmToStringWithSourceMap sl none).map, none⟩) ⟨_, rfl⟩)
    exact ⟨m, hm1, SlmGood.reads (SlmGood.mono grown hm2) tells⟩
  · cases h2

/-- C62: maps given to `SourceMapSource`s are ordinary objects that can be read. The pair is read at any
later time, provided it was not given to a `SourceMapSource` or assigned to (C54, C55). Missing: maps that
were emitted before (C66); prefixes and replacements that put lines in or meet lines that repeat are exact but
for one line (`C44_not_general`, `C45_not_general`). -/
theorem C62_partial (ops more : List JOp) (w w1 w2 : World) (j k : Nat) (module_ : Bool)
    (r : World.run ops = .ok w) (hp : ∀ op ∈ ops, op.Proper) (hr : ∀ op ∈ ops, Spec.JOp.Readable module_ op)
    (e : (JOp.sourceAndMap j false module_).run w = .ok (.pair k, w1)) (e2 : w1.runFrom more = .ok w2)
    (hg : ∀ op ∈ more, ¬ op.gives k) (hset : ∀ a, .set k a ∉ more) :
    ∃ m, JLines (jthings ops) (jmade ops) module_ (.obj j) m ∧
      Reads w2 k .source (.text (m.map Prod.fst)) ∧
      ∃ l s ps, Reads w2 k .sources (.list l) ∧ Reads w2 k .mappings (.text s) ∧
        points (idTable l.length) [] s = some ps ∧ AttributesNamed l ps (1, 0) (seen none m) := by
  obtain ⟨A, I⟩ := World.run_inv hp r
  have L := World.run_labels hp r
  obtain ⟨-, hlog⟩ := World.run_log r
  have hst : ∀ o ∈ w.log, Spec.Op.StableMap o := by
    intro o ho
    obtain ⟨op, hop, hof⟩ := hlog o ho
    cases o <;> try trivial
    obtain ⟨-, n, m, o', i, rfl, -, h1⟩ := hof
    obtain ⟨ss, cs, ns, mp, rfl, -⟩ := hr _ hop
    obtain ⟨-, d, hd, -⟩ := h1 ss cs ns mp rfl
    exact .inl (by rw [hd]; rfl)
  exact World.emit_lines I L hst (fun op h => hr op (List.mem_filter.1 h).1)
    (fun op h => (List.mem_filter.1 h).2) e (.of_run e2 hg hset)

/-! ## Programs without `PrefixSource` and `ReplaceSource` -/

/-- The statement makes such an object. -/
def Makes : JOp → JThing → Prop
  | .newRaw _, .leaf _ _ => True
  | .newOriginal .., .leaf _ _ => True
  | .newL2l .., .leaf _ _ => True
  | .newSms .., .leaf _ _ => True
  | .newPrefix p c, .prefixed p' c' => p = p' ∧ c = c'
  | .newReplace c, .replaced c' _ => c = c'
  | .newConcat _, .joined _ => True
  | _, _ => False

/-- Statements and objects go together. -/
structure Together (made : List JOp) (st : List JThing) : Prop where
  len : made.length = st.length
  each : ∀ (j : Nat) (op : JOp) (x : JThing), made[j]? = some op → st[j]? = some x → Makes op x

theorem Together.push {made : List JOp} {st : List JThing} (T : Together made st) {op : JOp} {x : JThing}
    (h : Makes op x) : Together (made ++ [op]) (st ++ [x]) := by
  refine ⟨by simp [T.len], fun j o y h1 h2 => ?_⟩
  rw [getElem?_snoc] at h1 h2
  rw [T.len] at h1
  split at h1
  · rename_i hj
    rw [if_pos hj] at h2
    cases h1; cases h2; exact h
  · rename_i hj
    rw [if_neg hj] at h2
    exact T.each j o y h1 h2

theorem Together.put {made : List JOp} {st : List JThing} (T : Together made st) {k : Nat} {x y : JThing}
    (hk : st[k]? = some x) (h : ∀ op, Makes op x → Makes op y) : Together made (st.set k y) := by
  refine ⟨by simp [T.len], fun j o z h1 h2 => ?_⟩
  rw [List.getElem?_set] at h2
  split at h2
  · rename_i hj; subst hj
    split at h2
    · cases h2; exact h _ (T.each _ _ _ h1 hk)
    · cases h2
  · exact T.each j o z h1 h2

theorem Together.addTo {made : List JOp} {st : List JThing} (T : Together made st) (j : Nat) (i : JSrc) :
    Together made (addTo st j i) := by
  unfold Spec.addTo
  split
  · rename_i items hj
    exact T.put hj fun op h => by cases op <;> exact h
  · exact T

theorem Together.askTo {made : List JOp} {st : List JThing} (T : Together made st) (j : Nat) (r : JRequest) :
    Together made (askTo st j r) := by
  unfold Spec.askTo
  split
  · rename_i c rs hj
    exact T.put hj fun op h => by cases op <;> exact h
  · exact T

theorem Together.step {made : List JOp} {st : List JThing} (T : Together made st) (op : JOp) :
    Together (made ++ [op].filter Spec.JOp.makes) (jstep st op) := by
  cases op with
  | newRaw v => exact T.push trivial
  | newOriginal v n => exact T.push trivial
  | newL2l v n o => exact T.push trivial
  | newSms v n m o i => exact T.push trivial
  | newPrefix p c => exact T.push ⟨rfl, rfl⟩
  | newReplace c => exact T.push rfl
  | newConcat items =>
    have key : ∀ (is : List JSrc) (st' : List JThing), Together (made ++ [.newConcat items]) st' →
        Together (made ++ [.newConcat items]) (is.foldl (fun s i => Spec.addTo s st.length i) st') := by
      intro is
      induction is with
      | nil => intro st' h; exact h
      | cons i is ih => intro st' h; exact ih _ (h.addTo _ _)
    exact key items _ (T.push trivial)
  | add j i => simpa [Spec.JOp.makes, jstep] using T.addTo j i
  | replace j a b t => simpa [Spec.JOp.makes, jstep] using T.askTo j _
  | insert j p t => simpa [Spec.JOp.makes, jstep] using T.askTo j _
  | _ => simpa [Spec.JOp.makes, jstep] using T

theorem together : ∀ (ops : List JOp) {made : List JOp} {st : List JThing}, Together made st →
    Together (made ++ jmade ops) (ops.foldl jstep st)
  | [], _, _, T => by simpa [jmade] using T
  | op :: ops, made, st, T => by
    have := together ops (T.step op)
    rw [List.append_assoc] at this
    simpa [jmade, ← List.filter_append] using this

/-- Nothing is put in front of or replaced in the lines. -/
def Spec.JOp.Joins : JOp → Prop
  | .newPrefix _ _ | .newReplace _ => False
  | _ => True

theorem JLines.unique {st : List JThing} {made : List JOp} {mod : Bool} (T : Together made st)
    (hj : ∀ op ∈ made, Spec.JOp.Joins op) {src : JSrc} {m m' : NamedMarks} (h : JLines st made mod src m) :
    JLines st made mod src m' → m' = m := by
  have op_of : ∀ {j : Nat} {x : JThing}, st[j]? = some x → ∃ op, made[j]? = some op ∧ op ∈ made ∧ Makes op x := by
    intro j x hx
    have hlt : j < made.length := by rw [T.len]; exact (List.getElem?_eq_some_iff.1 hx).1
    exact ⟨made[j], List.getElem?_eq_getElem hlt, List.getElem_mem _, T.each j _ x (List.getElem?_eq_getElem hlt) hx⟩
  have noPre : ∀ {j : Nat} {p : List Char} {c : JSrc}, st[j]? = some (.prefixed p c) → False := by
    intro j p c hx
    obtain ⟨op, -, h1, h2⟩ := op_of hx
    have := hj op h1
    cases op <;> first | exact h2 | exact this
  have noRep : ∀ {j : Nat} {c : JSrc} {rs : List JRequest}, st[j]? = some (.replaced c rs) → False := by
    intro j c rs hx
    obtain ⟨op, -, h1, h2⟩ := op_of hx
    have := hj op h1
    cases op <;> first | exact h2 | exact this
  have noJoin : ∀ {j : Nat} {items : List JSrc} {op : JOp}, made[j]? = some op → st[j]? = some (.joined items) →
      ∃ is, op = .newConcat is := by
    intro j items op h1 hx
    have := T.each j _ _ h1 hx
    cases op <;> first | exact ⟨_, rfl⟩ | exact this.elim
  induction h generalizing m' with
  | str s => intro h'; cases h'; rfl
  | @joined j its ms hx hl hk ih =>
    intro h'
    cases h' with
    | raw h' => obtain ⟨_, e⟩ := noJoin h' hx; cases e
    | original h' => obtain ⟨_, e⟩ := noJoin h' hx; cases e
    | l2l h' => obtain ⟨_, e⟩ := noJoin h' hx; cases e
    | whole h' => obtain ⟨_, e⟩ := noJoin h' hx; cases e
    | sms h' => obtain ⟨_, e⟩ := noJoin h' hx; cases e
    | prefixed h' => exact (noPre h').elim
    | replaced h' => exact (noRep h').elim
    | @joined _ its' ms' hx' hl' hk' =>
      rw [hx] at hx'; cases hx'
      congr 1
      apply List.ext_getElem?
      intro k
      by_cases hlt : k < its.length
      · have e1 : ms[k]? = some (ms[k]'(by omega)) := List.getElem?_eq_getElem (by omega)
        have e2 : ms'[k]? = some (ms'[k]'(by omega)) := List.getElem?_eq_getElem (by omega)
        have e3 : its[k]? = some its[k] := List.getElem?_eq_getElem hlt
        rw [e1, e2, ih k _ _ e3 e1 (hk' k _ _ e3 e2)]
      · rw [List.getElem?_eq_none (by omega), List.getElem?_eq_none (by omega)]
  | prefixed hx => exact (noPre hx).elim
  | replaced hx => exact (noRep hx).elim
  | raw hx =>
    intro h'
    cases h' with
    | prefixed h' => exact (noPre h').elim
    | replaced h' => exact (noRep h').elim
    | joined h' => obtain ⟨_, e⟩ := noJoin hx h'; cases e
    | raw h' => rw [hx] at h'; cases h'; rfl
    | original h' => rw [hx] at h'; cases h'
    | l2l h' => rw [hx] at h'; cases h'
    | whole h' => rw [hx] at h'; cases h'
    | sms h' => rw [hx] at h'; cases h'
  | original hx =>
    intro h'
    cases h' with
    | prefixed h' => exact (noPre h').elim
    | replaced h' => exact (noRep h').elim
    | joined h' => obtain ⟨_, e⟩ := noJoin hx h'; cases e
    | raw h' => rw [hx] at h'; cases h'
    | original h' => rw [hx] at h'; cases h'; rfl
    | l2l h' => rw [hx] at h'; cases h'
    | whole h' => rw [hx] at h'; cases h'
    | sms h' => rw [hx] at h'; cases h'
  | l2l hx =>
    intro h'
    cases h' with
    | prefixed h' => exact (noPre h').elim
    | replaced h' => exact (noRep h').elim
    | joined h' => obtain ⟨_, e⟩ := noJoin hx h'; cases e
    | raw h' => rw [hx] at h'; cases h'
    | original h' => rw [hx] at h'; cases h'
    | l2l h' => rw [hx] at h'; cases h'; rfl
    | whole h' => rw [hx] at h'; cases h'
    | sms h' => rw [hx] at h'; cases h'
  | whole hx hb =>
    intro h'
    cases h' with
    | prefixed h' => exact (noPre h').elim
    | replaced h' => exact (noRep h').elim
    | joined h' => obtain ⟨_, e⟩ := noJoin hx h'; cases e
    | raw h' => rw [hx] at h'; cases h'
    | original h' => rw [hx] at h'; cases h'
    | l2l h' => rw [hx] at h'; cases h'
    | whole h' => rw [hx] at h'; cases h'; rfl
    | sms h' hb' => rw [hb] at hb'; cases hb'
  | sms hx hb hd =>
    intro h'
    cases h' with
    | prefixed h' => exact (noPre h').elim
    | replaced h' => exact (noRep h').elim
    | joined h' => obtain ⟨_, e⟩ := noJoin hx h'; cases e
    | raw h' => rw [hx] at h'; cases h'
    | original h' => rw [hx] at h'; cases h'
    | l2l h' => rw [hx] at h'; cases h'
    | whole h' hb' => rw [hb] at hb'; cases hb'
    | sms h' _ hd' => rw [hx] at h'; cases h'; rw [hd] at hd'; cases hd'; rfl

/-- C62 for programs without `PrefixSource` and `ReplaceSource`: the statements say exactly one thing
(`m`), and the map says it. -/
theorem C62_joined (ops more : List JOp) (w w1 w2 : World) (j k : Nat) (module_ : Bool) (m : NamedMarks)
    (r : World.run ops = .ok w) (hp : ∀ op ∈ ops, op.Proper) (hr : ∀ op ∈ ops, Spec.JOp.Readable module_ op)
    (hj : ∀ op ∈ ops, Spec.JOp.Joins op) (hm : JLines (jthings ops) (jmade ops) module_ (.obj j) m)
    (e : (JOp.sourceAndMap j false module_).run w = .ok (.pair k, w1)) (e2 : w1.runFrom more = .ok w2)
    (hg : ∀ op ∈ more, ¬ op.gives k) (hset : ∀ a, .set k a ∉ more) :
    Reads w2 k .source (.text (m.map Prod.fst)) ∧
    ∃ l s ps, Reads w2 k .sources (.list l) ∧ Reads w2 k .mappings (.text s) ∧
      points (idTable l.length) [] s = some ps ∧ AttributesNamed l ps (1, 0) (seen none m) := by
  obtain ⟨m', h1, h2⟩ := C62_partial ops more w w1 w2 j k module_ r hp hr e e2 hg hset
  have T : Together (jmade ops) (jthings ops) := by
    exact together ops (made := []) (st := []) ⟨rfl, fun j op x h => by simp at h⟩
  have := JLines.unique T (fun op h => hj op (List.mem_filter.1 h).1) hm h1
  rw [this] at h2
  exact h2


/-! Non-trivial case: all kinds of objects, one file under two objects. -/

/-- The program. -/
def c62Program : List JOp :=
  [.newOriginal "a\nb\n".toList "a.js".toList, .newL2l "c\nd".toList "c.js".toList "C\nD".toList,
   .newRaw "r\n".toList, .newSms "p\n\nq\n".toList "g.js".toList
     (.plain [some "h.js".toList, some "a.js".toList] [] [] "AAAA;;ACCA".toList) none none,
   .newConcat [.str "// x\n".toList, .obj 0, .obj 1, .str "!\n".toList],
   .newConcat [.obj 4, .obj 2], .add 5 (.obj 3)]

/-- What it says of its last object. -/
def c62Marks : NamedMarks :=
  [plainly "// x\n".toList, fromFile (some "a.js".toList) 1 1 "a\nb\n".toList,
   fromFile (some "c.js".toList) 1 1 "c\nd".toList, plainly "!\n".toList, plainly "r\n".toList,
   fromFile (some "h.js".toList) 1 1 "p\n\n".toList ++ fromFile (some "a.js".toList) 1 2 "q\n".toList].flatten

example : (∀ op ∈ c62Program, op.Proper) ∧ (∀ op ∈ c62Program, Spec.JOp.Readable true op) ∧
    ∀ op ∈ c62Program, Spec.JOp.Joins op := by
  refine ⟨?_, ?_, ?_⟩
  · simp [c62Program, JOp.Proper]
  · intro op h
    simp only [c62Program, List.mem_cons, List.not_mem_nil, or_false] at h
    rcases h with rfl | rfl | rfl | rfl | rfl | rfl | rfl
    all_goals first | trivial | exact ⟨_, _, _, _, rfl, fun _ => by decide +kernel⟩
  · simp [c62Program, Spec.JOp.Joins]
example : JLines (jthings c62Program) (jmade c62Program) true (.obj 5) c62Marks := by
  refine .joined (items := [.str "// x\n".toList, .obj 0, .obj 1, .str "!\n".toList, .obj 2, .obj 3])
    (by decide +kernel) rfl ?_
  have h3 : JLines (jthings c62Program) (jmade c62Program) true (.obj 3)
      (fromFile (some "h.js".toList) 1 1 "p\n\n".toList ++ fromFile (some "a.js".toList) 1 2 "q\n".toList) :=
    .sms (v := "p\n\nq\n".toList) (n := "g.js".toList) (ss := [some "h.js".toList, some "a.js".toList]) (cs := [])
      (ns := []) (mp := "AAAA;;ACCA".toList) (o := none) (i := none)
      (d := ⟨fromFile (some "h.js".toList) 1 1 "p\n\n".toList ++ fromFile (some "a.js".toList) 1 2 "q\n".toList, true⟩)
      rfl rfl (by decide +kernel)
  intro k i m hi hm
  match k, hi, hm with
  | 0, hi, hm => cases hi; cases hm; exact .str _
  | 1, hi, hm => cases hi; cases hm; exact .original rfl
  | 2, hi, hm => cases hi; cases hm; exact .l2l rfl
  | 3, hi, hm => cases hi; cases hm; exact .str _
  | 4, hi, hm => cases hi; cases hm; exact .raw rfl
  | 5, hi, hm => cases hi; cases hm; exact h3
  | k + 6, hi, hm => simp at hi
example : ((World.run (c62Program ++ [.sourceAndMap 5 false true])).toOption.map fun w =>
    [JField.source, .sources, .mappings].map fun f => ((JOp.get 0 f).run w).toOption.map Prod.fst) =
    some [some (.field (.text "// x\na\nb\nc\nd!\nr\np\n\nq\n".toList)),
      some (.field (.list [some "a.js".toList, some "c.js".toList, some "h.js".toList])),
      some (.field (.text ";AAAA;AACA;ACDA;AACA;;ACDA;AACA;AFAA;".toList))] := by decide +kernel

/-! A prefix and a replacement in it. -/

example : ((World.run (c62Program ++ [.newPrefix "\t".toList (.obj 5), .newReplace (.obj 6),
      .replace 7 7 7 "B".toList, .sourceAndMap 7 false true])).toOption.map fun w =>
    [JField.source, .sources, .mappings].map fun f => ((JOp.get 0 f).run w).toOption.map Prod.fst) =
    some [some (.field (.text "\t// x\n\tB\n\tb\n\tc\n\td\t!\n\tr\n\tp\n\t\n\tq\n\t".toList)),
      some (.field (.list [some "a.js".toList, some "c.js".toList, some "h.js".toList])),
      some (.field (.text ";AAAA;AACA;ACDA;AACA;;ACDA;AACA;AFAA;AACA".toList))] := by decide +kernel

end WS
