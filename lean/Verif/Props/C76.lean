import Verif.Props.C75All
import Verif.Props.C52
/-!
# C76: `sourcesContent` is exactly what was given for the files listed

Claim: `sourcesContent` of the pair handed out by `sourceAndMap()` has, for each file of `sources` in turn, the
first content that the parts of the object give for it, taken in order; files without one are left out, and if
there is none at all the property is undefined. So it is parallel to `sources` exactly if every file has a
content.
-/

namespace WS
open Spec

/-! ## Spec -/

/-- The original text given with an inner map: the empty one counts as none. -/
def Spec.ownText (n : List Char) : Option (List Char) → List (JVal × JVal)
  | none => []
  | some [] => []
  | some (c :: s) => [(some n, some (c :: s))]

/-- The contents an object has for files, in order. -/
inductive Spec.JGives (st : List JThing) (made : List JOp) : JSrc → List (JVal × JVal) → Prop where
  | str (s : List Char) : JGives st made (.str s) []
  | raw {j : Nat} {v : List Char} : made[j]? = some (.newRaw v) → JGives st made (.obj j) []
  | original {j : Nat} {v n : List Char} : made[j]? = some (.newOriginal v n) →
      JGives st made (.obj j) [(some n, some v)]
  | l2l {j : Nat} {v n o : List Char} : made[j]? = some (.newL2l v n o) → JGives st made (.obj j) [(some n, some o)]
  | sms {j : Nat} {v n : List Char} {ss cs ns : List JVal} {mp : List Char} {o : Option (List Char)} :
      made[j]? = some (.newSms v n (.plain ss cs ns mp) o none) → JGives st made (.obj j) (ss.zip cs)
  | inner {j : Nat} {v n : List Char} {ss cs ns ss' cs' ns' : List JVal} {mp mp' : List Char}
      {o : Option (List Char)} : made[j]? = some (.newSms v n (.plain ss cs ns mp) o (some (.plain ss' cs' ns' mp'))) →
      JGives st made (.obj j) (ss.zip cs ++ ownText n o ++ ss'.zip cs')
  | prefixed {j : Nat} {p : List Char} {c : JSrc} {l : List (JVal × JVal)} : st[j]? = some (.prefixed p c) →
      JGives st made c l → JGives st made (.obj j) l
  | joined {j : Nat} {items : List JSrc} {ls : List (List (JVal × JVal))} :
      st[j]? = some (.joined items) → ls.length = items.length →
      (∀ (k : Nat) (i : JSrc) (l : List (JVal × JVal)), items[k]? = some i → ls[k]? = some l → JGives st made i l) →
      JGives st made (.obj j) ls.flatten

/-- The contents for the files, those without left out. -/
def Spec.contentsFor (l : List (JVal × JVal)) (fs : List JVal) : List JVal := fs.filterMap fun f => l.lookup f

/-- How a list of contents reads. -/
def Spec.contentsRead (cs : List JVal) : JFieldVal := if cs = [] then .undefined else .list cs

/-- The properties of the pair read like this. -/
def Spec.ShowsContents (w : World) (k : Nat) (l : List (JVal × JVal)) : Prop :=
  ∃ fs, Reads w k .sources (.list fs) ∧ Reads w k .contents (contentsRead (contentsFor l fs))

/-! ## Indices and strings -/

/-- The table of contents by index says what the one by strings says. -/
def Filled (t : StrTable JVal) (cts : List (Int × Int)) (l : List (JVal × JVal)) : Prop :=
  ∀ s, Canon t (fun _ => True) s → (cts.lookup s).map t.name = l.lookup (t.name s)

theorem Filled.nil (t : StrTable JVal) : Filled t [] [] := fun _ _ => rfl

theorem Filled.append {t : StrTable JVal} {a b : List (Int × Int)} {l m : List (JVal × JVal)} (h : Filled t a l)
    (h' : Filled t b m) : Filled t (a ++ b) (l ++ m) := by
  intro s hs
  rw [List.lookup_append, List.lookup_append, ← h s hs, ← h' s hs]
  cases a.lookup s <;> rfl

theorem Filled.of_lookup {t : StrTable JVal} {a b : List (Int × Int)} {l : List (JVal × JVal)} (h : Filled t a l)
    (e : ∀ s, b.lookup s = a.lookup s) : Filled t b l := fun s hs => by rw [e, h s hs]

theorem Canon.any {t : StrTable JVal} {P : JVal → Prop} {i : Int} (h : Canon t P i) : Canon t (fun _ => True) i := by
  obtain ⟨a, v, b, -, c⟩ := h
  exact ⟨a, v, b, trivial, c⟩

theorem Filled.one {t : StrTable JVal} {i k : Int} {f v : JVal} (hi : Canon t (· = f) i) (hk : t.name k = v) :
    Filled t [(i, k)] [(f, v)] := by
  intro s hs
  have hf : t.name i = f := hi.calls.2
  rw [List.lookup_cons, List.lookup_cons]
  by_cases e : s = i
  · subst e; simp [hf, hk]
  · have : t.name s ≠ f := fun x => e (canon_inj hs hi.any (x.trans hf.symm))
    rw [beq_false_of_ne e, beq_false_of_ne this]; rfl

theorem Filled.cons {t : StrTable JVal} {i k : Int} {f v : JVal} {a : List (Int × Int)} {l : List (JVal × JVal)}
    (hi : Canon t (· = f) i) (hk : t.name k = v) (h : Filled t a l) : Filled t ((i, k) :: a) ((f, v) :: l) :=
  Filled.append (.one hi hk) h

theorem Filled.zip {t : StrTable JVal} : ∀ {S C : List Int} {ss cs : List JVal}, t.Lists S ss → C.map t.name = cs →
    Filled t (S.zip C) (ss.zip cs)
  | [], C, ss, cs, h, _ => by
    have : ss = [] := List.eq_nil_of_length_eq_zero h.1.symm
    subst this
    simpa using Filled.nil t
  | s :: S, [], ss, cs, _, e => by
    cases e
    simpa using Filled.nil t
  | s :: S, c :: C, [], cs, h, _ => by cases h.1
  | s :: S, c :: C, f :: ss, cs, h, e => by
    subst e
    exact .cons (h.2 0 s f rfl rfl) rfl (Filled.zip ⟨by simpa using h.1, fun k i v h1 h2 =>
      h.2 (k + 1) i v (by simpa using h1) (by simpa using h2)⟩ rfl)

theorem StrTable.values_map {t : StrTable JVal} {ids : List Int} {vs : List JVal} (h : t.values ids = some vs) :
    ids.map t.name = vs := by
  have : ∀ i ∈ ids, t.Has i := by
    intro i hi
    obtain ⟨k, hk, rfl⟩ := List.getElem_of_mem hi
    have := (StrTable.values_at h k hk).1
    rwa [List.getElem?_eq_getElem hk] at this
  rw [StrTable.values_get this] at h
  exact Option.some.inj h

/-! ## Generators and nodes -/

theorem registerSources_contents {b : Bool} : ∀ {S C : List Int} {g : Generator}, S.Nodup →
    (∀ s ∈ S, g.contents.lookup s = none) → (registerSources b g S C).contents = g.contents ++ S.zip C
  | [], _, g, _, _ => by simp [registerSources]
  | s :: S, [], g, hn, h => by
    have hn := List.nodup_cons.1 hn
    have e : ((if b then g.addSource s else g).setSourceContent s none).contents = g.contents := by
      have : (if b then g.addSource s else g).contents = g.contents := by split <;> rfl
      simp only [Generator.setSourceContent, this, amRemove]
      rw [List.filter_eq_self]
      intro p hp
      simp only [bne_iff_ne, ne_eq]
      intro hs
      have := h s (by simp)
      rw [List.lookup_eq_none_iff] at this
      have := this p hp
      simp [hs] at this
    simp only [registerSources, List.head?_nil, List.tail_nil]
    rw [registerSources_contents hn.2, e]
    · simp
    · intro x hx; rw [e]; exact h x (by simp [hx])
  | s :: S, c :: C, g, hn, h => by
    have hn := List.nodup_cons.1 hn
    have e : ((if b then g.addSource s else g).setSourceContent s (some c)).contents = g.contents ++ [(s, c)] := by
      have : (if b then g.addSource s else g).contents = g.contents := by split <;> rfl
      simp only [Generator.setSourceContent, this, amOrInsert, h s (by simp)]
    simp only [registerSources, List.head?_cons, List.tail_cons]
    rw [registerSources_contents hn.2, e]
    · simp
    · intro x hx
      rw [e, List.lookup_append, h x (by simp [hx]), List.lookup_cons]
      have : x ≠ s := fun e => hn.1 (e ▸ hx)
      rw [beq_false_of_ne this]; rfl

theorem fromSourceMap_contents {S C N : List Int} {mp : Str} {b : Bool} {file : Option Int} {root : Option Str}
    {g : Generator} (hn : S.Nodup) (e : Generator.fromSourceMap S C mp N file root b = .ok g) :
    g.contents = S.zip C := by
  have hc : g.contents = (registerSources b (Generator.new file root true) S C).contents := by
    simp only [Generator.fromSourceMap] at e
    split at e
    · cases e
    · exact addParsed_contents e
  rw [hc, registerSources_contents hn]
  · rfl
  · intro s _; rfl

theorem fromStringWithGenerator_cts {code : Str} {g : Generator} {n : SmNode}
    (e : fromStringWithGenerator code g = .ok n) : n.cts = g.contents := by
  simp only [fromStringWithGenerator] at e
  split at e
  · cases e
  · rename_i st es
    cases e
    have : NodesIn ⟨fun _ => True, fun _ => False, fun _ => True⟩ (fsFinish st) :=
      fsFinish_in (fsLoop_in ⟨NodesIn.nil, fun x hx => by cases hx⟩
        (fun m _ => ⟨fun _ _ => trivial, fun _ _ => trivial⟩) es)
    have hnil : SmNode.ctsList (fsFinish st) = [] := by
      rw [List.eq_nil_iff_forall_not_mem]
      intro p hp
      obtain ⟨c, hc, hp⟩ := SmNode.ctsList_mem.1 hp
      exact (this c hc).cts p hp
    simp [SmNode.cts, hnil]

theorem setContents_contents : ∀ (cs : List (Int × Int)) (g : Generator),
    (cs.foldl (fun g p => g.setSourceContent p.1 (some p.2)) g).contents = enterAll g.contents cs
  | [], _ => rfl
  | c :: cs, g => by rw [List.foldl_cons, setContents_contents]; rfl

theorem applySourceMap_contents {g g' inner inner' : Generator} {f : Option Int}
    (e : g.applySourceMap inner f = .ok (g', inner')) : g'.contents = enterAll g.contents inner.contents := by
  simp only [Generator.applySourceMap] at e
  split at e
  · cases e
  · rename_i file _
    have hl := (applyLoop_inner (D := ⟨fun _ => True, fun _ => True, fun _ => True⟩) (file := some file)
      (l := g.mappings.setUnsorted.list) (inner := inner)
      ⟨fun m _ => ⟨fun _ _ => trivial, fun _ _ => trivial⟩, fun _ _ => trivial, fun _ _ => trivial,
        fun _ _ => trivial⟩).2
    generalize applyLoop (some file) inner g.mappings.setUnsorted.list = r at e hl
    obtain ⟨list, in'⟩ := r
    dsimp only at e hl
    cases e
    rw [setContents_contents, foldl_addName_contents, foldl_addSource_contents, hl]

/-- The node of a `SourceMapSource` with fresh data. -/
theorem Sms.node_cts {v : Str} {vi i : Int} {d : SmData} {o : Option Int} {n : SmNode} {s' : Sms}
    (hn : d.sources.Nodup) (e : (Sms.create v vi i ⟨some d, none⟩ o none).node = .ok (n, s')) :
    n.cts = d.sources.zip d.contents := by
  simp only [Sms.node, Sms.create, SmHolder.getGen] at e
  cases hg : Generator.fromSourceMap d.sources d.contents d.mappings d.names none none true with
  | error z => rw [hg] at e; cases e
  | ok g =>
    rw [hg] at e
    dsimp only at e
    cases hf : fromStringWithGenerator v g with
    | error z => rw [hf] at e; cases e
    | ok m =>
      rw [hf] at e
      cases e
      rw [fromStringWithGenerator_cts hf, fromSourceMap_contents hn hg]

theorem Sms.node_cts_inner {v : Str} {vi i : Int} {d d' : SmData} {o : Option Int} {n : SmNode} {s' : Sms}
    (hn : d.sources.Nodup) (hn' : d'.sources.Nodup)
    (e : (Sms.create v vi i ⟨some d, none⟩ o (some ⟨some d', none⟩)).node = .ok (n, s')) (s : Int) :
    n.cts.lookup s =
      (d.sources.zip d.contents ++ (o.toList.map fun k => (i, k)) ++ d'.sources.zip d'.contents).lookup s := by
  simp only [Sms.node, Sms.create, SmHolder.getGen] at e
  cases hg : Generator.fromSourceMap d.sources d.contents d.mappings d.names none none true with
  | error z => rw [hg] at e; cases e
  | ok g =>
    rw [hg] at e
    dsimp only at e
    cases hg' : Generator.fromSourceMap d'.sources d'.contents d'.mappings d'.names none none true with
    | error z => rw [hg'] at e; cases e
    | ok g' =>
      rw [hg'] at e
      simp only [Bool.false_eq_true, if_false] at e
      split at e
      · cases e
      · rename_i h h' ha
        cases hf : fromStringWithGenerator v h with
        | error z => rw [hf] at e; cases e
        | ok m =>
          rw [hf] at e
          cases e
          rw [fromStringWithGenerator_cts hf, applySourceMap_contents ha, enterAll_lookup,
            fromSourceMap_contents hn' hg', List.lookup_append]
          congr 1
          cases o with
          | none => simp [fromSourceMap_contents hn hg]
          | some k =>
            simp only [Option.isSome_some, if_true, Generator.setSourceContent, fromSourceMap_contents hn hg]
            rw [lookup_insert, List.lookup_append]; rfl

/-! ## Objects -/

/-- Maps are handed to wasm as data. -/
def Spec.Op.PlainMaps : Op → Prop
  | .newSms _ _ _ m _ inner => m.gen = none ∧ ∀ i, inner = some i → i.gen = none
  | _ => True

theorem choose_each {α β : Type} : ∀ {xs : List β} {Q : Nat → β → α → Prop},
    (∀ k x, xs[k]? = some x → ∃ a, Q k x a) →
    ∃ as : List α, as.length = xs.length ∧ ∀ k x a, xs[k]? = some x → as[k]? = some a → Q k x a
  | [], _, _ => ⟨[], rfl, fun k x a h => by simp at h⟩
  | x :: xs, Q, h => by
    obtain ⟨a, ha⟩ := h 0 x rfl
    obtain ⟨as, h1, h2⟩ := choose_each (xs := xs) (Q := fun k => Q (k + 1)) fun k y hy => h (k + 1) y (by simpa using hy)
    refine ⟨a :: as, by simp [h1], fun k y b hy hb => ?_⟩
    cases k with
    | zero => simp at hy hb; subst hy hb; exact ha
    | succ k => exact h2 k y b (by simpa using hy) (by simpa using hb)

theorem Filled.flatten {t : StrTable JVal} : ∀ {xs : List SmNode} {ls : List (List (JVal × JVal))},
    ls.length = xs.length → (∀ (k : Nat) (x : SmNode) (l : List (JVal × JVal)), xs[k]? = some x → ls[k]? = some l → Filled t x.cts l) →
    Filled t (SmNode.ctsList xs) ls.flatten
  | [], ls, h, _ => by
    have : ls = [] := List.eq_nil_of_length_eq_zero h
    subst this
    exact .nil t
  | x :: xs, [], h, _ => by cases h
  | x :: xs, l :: ls, h, hk => by
    rw [SmNode.ctsList, List.flatten_cons]
    exact (hk 0 x l rfl rfl).append (Filled.flatten (by simpa using h) fun k y m h1 h2 =>
      hk (k + 1) y m (by simpa using h1) (by simpa using h2))

theorem owned_cts {name c : Int} {cols : Bool} {k : Nat} {ps : List Str} :
    (SmNode.node none none none [(name, c)] (originalLines cols name k ps)).cts = [(name, c)] := by
  have hin : NodesIn ⟨(· = name), fun _ => False, fun _ => True⟩ (originalLines cols name k ps) := originalLines_in rfl
  have hnil : SmNode.ctsList (originalLines cols name k ps) = [] := by
    rw [List.eq_nil_iff_forall_not_mem]
    intro p hp
    obtain ⟨x, hx, hp⟩ := SmNode.ctsList_mem.1 hp
    exact (hin x hx).cts p hp
  simp [SmNode.cts, hnil]

theorem rawNode_cts (v : Str) : (rawNode v).cts = [] := by
  have : (rawNode v).In ⟨fun _ => False, fun _ => False, fun _ => True⟩ := rawNode_in v
  rw [List.eq_nil_iff_forall_not_mem]
  exact fun p hp => this.cts p hp

theorem StrTable.Holds.data {t : StrTable JVal} {hd : SmHolder} {ss cs ns : List JVal} {mp : Str}
    (h : t.Holds hd ss cs ns mp) (hg : hd.gen = none) (hw : WellMade ss ns mp) :
    ∃ d, hd = ⟨some d, none⟩ ∧ d.sources.Nodup ∧ Filled t (d.sources.zip d.contents) (ss.zip cs) := by
  obtain ⟨d, h1, h2, -, h4, -, h6⟩ := h
  obtain ⟨_, -, -, -, ⟨-, hn⟩, -⟩ := hw
  rcases h1 with rfl | ⟨g, h1, -⟩
  · refine ⟨d, rfl, ?_, .zip h4 (StrTable.values_map h6)⟩
    rw [← StrTable.values_map h2] at hn
    exact List.Pairwise.of_map t.name (fun a b h e => h (e ▸ rfl)) hn
  · rw [hg] at h1; cases h1

theorem Filled.own {t : StrTable JVal} {i : Int} {f : Str} {o : Option Int} {orig : Option Str}
    (hi : Canon t (· = some f) i) (h : t.CallsOpt o (truthy orig)) :
    Filled t (o.toList.map fun k => (i, k)) (ownText f orig) := by
  rcases orig with _ | (_ | ⟨c, s⟩)
  · rw [h.1 rfl]; exact .nil t
  · rw [h.1 rfl]; exact .nil t
  · obtain ⟨k, rfl, hk⟩ := h.2 _ rfl
    exact .one hi hk.2

/-- The contents of an object are those of its node. -/
theorem JGives.of_unfolds {w : World} {A : AHeap} {st : List JThing} {made : List JOp} {mod : Bool} (I : w.Inv A st)
    (L : w.Labels made) (hr : ∀ op ∈ made, Spec.JOp.Exact op) (hm : ∀ op ∈ made, Spec.JOp.makes op = true)
    (hplain : ∀ o ∈ w.log, Spec.Op.PlainMaps o) {src' : Src} {t : Tree} (u : Unfolds A src' t) :
    ∀ src, tr (w.objs.map JObj.ptr) src = some src' → Unreplaced st true src →
      ∀ n, Tree.itemNode true mod t = .ok n → ∃ l, JGives st made src l ∧ Filled w.strs n.cts l := by
  have leafCase : ∀ (i : Nat) (a : AObj), A[i]? = some a → ∀ src, tr (w.objs.map JObj.ptr) src = some (.ref i) →
      ∃ j op c, src = .obj j ∧ made[j]? = some op ∧ Spec.JOp.Exact op ∧ Spec.JOp.makes op = true ∧
        objOf w.log i c = some a ∧ Label w.strs (some c) op ∧ Spec.Op.PlainMaps c := by
    intro i a hA src e
    cases src with
    | str s => cases e
    | obj j =>
      obtain ⟨o, ho, rfl⟩ := tr_obj_inv e
      obtain ⟨op, h1, h2, h3⟩ := L.get ho
      have D := stepAll_described I.log o.ptr
      rw [hA] at D
      cases hc : (created w.log)[o.ptr]? with
      | none => rw [hc] at D; cases D
      | some c =>
        have hmem := hplain c (List.mem_filter.1 (List.mem_of_getElem? hc)).1
        rw [hc] at D h3
        exact ⟨j, op, c, rfl, h1, hr op h2, hm op h2, D.symm, h3, hmem⟩
  induction u with
  | str s =>
    intro src e _ n hn
    cases hn
    cases src with
    | str s' => cases e; exact ⟨[], .str s, .nil _⟩
    | obj j =>
      simp only [tr] at e
      cases hp : (w.objs.map JObj.ptr)[j]? with
      | none => rw [hp] at e; cases e
      | some p => rw [hp] at e; cases e
  | raw hA =>
    intro src e _ n hn
    obtain ⟨j, op, c, rfl, h1, h2, h3, h4, h5, -⟩ := leafCase _ _ hA src e
    cases c <;> simp [objOf] at h4
    subst h4
    cases op <;> simp [Label, Spec.JOp.makes] at h5 h3
    subst h5
    cases hn
    exact ⟨[], .raw h1, by rw [rawNode_cts]; exact .nil _⟩
  | original hA =>
    intro src e _ n hn
    obtain ⟨j, op, c, rfl, h1, h2, h3, h4, h5, -⟩ := leafCase _ _ hA src e
    cases c <;> simp [objOf] at h4
    obtain ⟨rfl, rfl, rfl⟩ := h4
    cases op with
    | newRaw v => cases h5
    | newOriginal v n =>
      obtain ⟨_, _, h5, h6, h7⟩ := h5; cases h5
      cases hn
      exact ⟨_, .original h1, by rw [originalNode, owned_cts]; exact .one h6 h7.2⟩
    | newL2l v n o => obtain ⟨_, _, h5, _⟩ := h5; cases h5
    | newSms v n map orig inner => obtain ⟨_, _, _, _, _, h5, _⟩ := h5; cases h5
    | newPrefix p x => obtain ⟨_, h5⟩ := h5; cases h5
    | newReplace x => obtain ⟨_, h5⟩ := h5; cases h5
    | newConcat x => cases h5
    | _ => cases h3
  | l2l hA =>
    intro src e _ n hn
    obtain ⟨j, op, c, rfl, h1, h2, h3, h4, h5, -⟩ := leafCase _ _ hA src e
    cases c <;> simp [objOf] at h4
    obtain ⟨rfl, rfl, rfl⟩ := h4
    cases op with
    | newRaw v => cases h5
    | newOriginal v n => obtain ⟨_, _, h5, _⟩ := h5; cases h5
    | newL2l v n o =>
      obtain ⟨_, _, h5, h6, h7⟩ := h5; cases h5
      cases hn
      exact ⟨_, .l2l h1, by rw [l2lNode, owned_cts]; exact .one h6 h7.2⟩
    | newSms v n map orig inner => obtain ⟨_, _, _, _, _, h5, _⟩ := h5; cases h5
    | newPrefix p x => obtain ⟨_, h5⟩ := h5; cases h5
    | newReplace x => obtain ⟨_, h5⟩ := h5; cases h5
    | newConcat x => cases h5
    | _ => cases h3
  | @sms i s hA =>
    intro src e _ n hn
    obtain ⟨j, op, c, rfl, h1, h2, h3, h4, h5, hp⟩ := leafCase _ _ hA src e
    cases c <;> simp [objOf] at h4
    subst h4
    cases op with
    | newRaw v => cases h5
    | newOriginal v n => obtain ⟨_, _, h5, _⟩ := h5; cases h5
    | newL2l v n o => obtain ⟨_, _, h5, _⟩ := h5; cases h5
    | newSms v f map orig inner =>
      obtain ⟨vi, ni, hd, o', inn, h5, h6, h7, h8, h9, h10⟩ := h5
      cases h5
      obtain ⟨⟨ss, cs, ns, mp, rfl, hw⟩, hin⟩ := h2
      obtain ⟨d, rfl, hd, hfill⟩ := (h7 ss cs ns mp rfl).data hp.1 hw
      obtain ⟨s', hq⟩ := sms_item hn
      cases inner with
      | none =>
        cases h8 rfl
        exact ⟨_, .sms h1, by rw [Sms.node_cts hd hq]; exact hfill⟩
      | some im =>
        obtain ⟨ss', cs', ns', mp', rfl, hw'⟩ := hin im rfl
        obtain ⟨ih, rfl, hh'⟩ := h9 ss' cs' ns' mp' rfl
        obtain ⟨d', rfl, hd', hfill'⟩ := hh'.data (hp.2 _ rfl) hw'
        exact ⟨_, .inner h1, ((hfill.append (.own h6 h10)).append hfill').of_lookup (Sms.node_cts_inner hd hd' hq)⟩
    | newPrefix p x => obtain ⟨_, h5⟩ := h5; cases h5
    | newReplace x => obtain ⟨_, h5⟩ := h5; cases h5
    | newConcat x => cases h5
    | _ => cases h3
  | @prefixed i p c t hA hc ih =>
    intro src e hu n hn
    cases src with
    | str s => cases e
    | obj j =>
      obtain ⟨o, ho, rfl⟩ := tr_obj_inv e
      obtain ⟨y, hy, sim⟩ := I.sim.get' ho
      generalize o.kind = k at sim
      cases sim with
      | leaf hk hA' ha' => rw [hA] at hA'; cases hA'; cases ha'
      | @prefixed _ c0 _ hA' hc' =>
        rw [hA] at hA'; cases hA'
        have down : Unreplaced st true c0 := by
          cases hu with
          | leaf h => rw [hy] at h; cases h
          | prefixed h h' => rw [hy] at h; cases h; exact h'
          | joined h => rw [hy] at h; cases h
        change Tree.node true mod (.prefixed _ t) = .ok n at hn
        rw [Tree.node] at hn
        cases hl : t.node true mod with
        | error z => rw [hl] at hn; cases hn
        | ok m =>
          rw [hl] at hn; cases hn
          have hit : Tree.itemNode true mod t = .ok m := by
            cases t <;> first | exact hl | cases hl
          obtain ⟨l, k1, k2⟩ := ih _ hc' down _ hit
          refine ⟨l, .prefixed hy k1, ?_⟩
          have : (prefixNode p m).cts = m.cts := by
            simp [prefixNode, SmNode.mkVec, SmNode.cts, SmNode.ctsList, (cloneAndPrefix_same m 1).1]
          rw [this]; exact k2
      | replaced hA' _ => rw [hA] at hA'; cases hA'
      | joined hA' _ => rw [hA] at hA'; cases hA'
  | @replace i c cs t hA hc ih =>
    intro src e hu n hn
    cases src with
    | str s => cases e
    | obj j =>
      obtain ⟨o, ho, rfl⟩ := tr_obj_inv e
      obtain ⟨y, hy, sim⟩ := I.sim.get' ho
      generalize o.kind = k at sim
      cases sim with
      | leaf hk hA' ha' => rw [hA] at hA'; cases hA'; cases ha'
      | prefixed hA' hc' => rw [hA] at hA'; cases hA'
      | replaced hA' hc' =>
        cases hu with
        | leaf h => rw [hy] at h; cases h
        | prefixed h h' => rw [hy] at h; cases h
        | joined h => rw [hy] at h; cases h
      | joined hA' _ => rw [hA] at hA'; cases hA'
  | @concat i is ts hA hl hk ih =>
    intro src e hu n hn
    cases src with
    | str s => cases e
    | obj j =>
      obtain ⟨o, ho, rfl⟩ := tr_obj_inv e
      obtain ⟨y, hy, sim⟩ := I.sim.get' ho
      generalize o.kind = k at sim
      cases sim with
      | leaf hk hA' ha' => rw [hA] at hA'; cases hA'; cases ha'
      | prefixed hA' hc' => rw [hA] at hA'; cases hA'
      | replaced hA' _ => rw [hA] at hA'; cases hA'
      | @joined cs its is' hA' hi =>
        rw [hA] at hA'; cases hA'
        have hlen : its.length = is.length := by simpa using congrArg List.length hi
        have down : ∀ i ∈ its, Unreplaced st true i := by
          cases hu with
          | leaf h => rw [hy] at h; cases h
          | prefixed h h' => rw [hy] at h; cases h
          | joined h h' => rw [hy] at h; cases h; exact h'
        change Tree.node true mod (.concat ts) = .ok n at hn
        rw [Tree.node, Tree.nodes_eq] at hn
        cases hxs : allM (Tree.itemNode true mod) ts with
        | error z => rw [hxs] at hn; cases hn
        | ok xs =>
          rw [hxs] at hn; cases hn
          obtain ⟨q1, q2⟩ := allM_each hxs
          obtain ⟨ls, r1, r2⟩ := choose_each (xs := xs)
              (Q := fun k x l => ∃ i, its[k]? = some i ∧ JGives st made i l ∧ Filled w.strs x.cts l) (by
            intro k x hx
            have hk' : k < xs.length := (List.getElem?_eq_some_iff.1 hx).1
            have e2 : is[k]? = some (is[k]'(by omega)) := List.getElem?_eq_getElem (by omega)
            have e3 : ts[k]? = some (ts[k]'(by omega)) := List.getElem?_eq_getElem (by omega)
            have e1 : its[k]? = some (its[k]'(by omega)) := List.getElem?_eq_getElem (by omega)
            obtain ⟨l, h1, h2⟩ := ih k _ _ e2 e3 (its[k]'(by omega)) (by
              have := congrArg (fun l => l[k]?) hi
              simpa [List.getElem?_map, e1, e2] using this) (down _ (List.mem_of_getElem? e1)) _ (q2 k _ _ e3 hx)
            exact ⟨l, _, e1, h1, h2⟩)
          refine ⟨ls.flatten, .joined hy (by omega) ?_, ?_⟩
          · intro k i l h1 h2
            have hk' : k < xs.length := by rw [← r1]; exact (List.getElem?_eq_some_iff.1 h2).1
            obtain ⟨i', h3, h4, -⟩ := r2 k _ l (List.getElem?_eq_getElem hk') h2
            rw [h1] at h3; cases h3; exact h4
          · simp only [SmNode.mkVec, SmNode.cts, List.append_nil]
            refine .flatten r1 fun k x l h1 h2 => ?_
            obtain ⟨_, _, _, h⟩ := r2 k x l h1 h2
            exact h

/-- The statements give one list of contents for an object. -/
theorem JGives.unique {st : List JThing} {made : List JOp} (T : Together made st) {src : JSrc}
    {l l' : List (JVal × JVal)} (h : JGives st made src l) : JGives st made src l' → l' = l := by
  have noPre : ∀ {j : Nat} {p : List Char} {c : JSrc} {op : JOp}, made[j]? = some op →
      st[j]? = some (.prefixed p c) → ¬ LeafOp op := by
    intro j p c op h1 hx h
    have := T.each j _ _ h1 hx
    cases op <;> first | exact this | exact h
  have noJoin : ∀ {j : Nat} {items : List JSrc} {op : JOp}, made[j]? = some op → st[j]? = some (.joined items) →
      ¬ LeafOp op := by
    intro j items op h1 hx h
    have := T.each j _ _ h1 hx
    cases op <;> first | exact this | exact h
  induction h generalizing l' with
  | str s => intro h'; cases h'; rfl
  | @prefixed j p c m hx hc ih =>
    intro h'
    cases h' with
    | raw h' => exact (noPre h' hx trivial).elim
    | original h' => exact (noPre h' hx trivial).elim
    | l2l h' => exact (noPre h' hx trivial).elim
    | sms h' => exact (noPre h' hx trivial).elim
    | inner h' => exact (noPre h' hx trivial).elim
    | prefixed hx' hc' => rw [hx] at hx'; cases hx'; exact ih hc'
    | joined h' => rw [hx] at h'; cases h'
  | @joined j its ms hx hl hk ih =>
    intro h'
    cases h' with
    | raw h' => exact (noJoin h' hx trivial).elim
    | original h' => exact (noJoin h' hx trivial).elim
    | l2l h' => exact (noJoin h' hx trivial).elim
    | sms h' => exact (noJoin h' hx trivial).elim
    | inner h' => exact (noJoin h' hx trivial).elim
    | prefixed h' => rw [hx] at h'; cases h'
    | @joined _ its' ms' hx' hl' hk' =>
      rw [hx] at hx'; cases hx'
      congr 1
      apply List.ext_getElem?
      intro k
      by_cases hlt : k < its.length
      · have e1 : ms[k]? = some (ms[k]'(by omega)) := List.getElem?_eq_getElem (by omega)
        have e2 : ms'[k]? = some (ms'[k]'(by omega)) := List.getElem?_eq_getElem (by omega)
        have e3 : its[k]? = some its[k] := List.getElem?_eq_getElem hlt
        rw [e1, e2, ih k _ _ e3 e1 (hk' k _ _ e3 e2)]
      · rw [List.getElem?_eq_none (by omega), List.getElem?_eq_none (by omega)]
  | raw hx =>
    intro h'
    cases h' with
    | prefixed h' => exact (noPre hx h' trivial).elim
    | joined h' => exact (noJoin hx h' trivial).elim
    | raw h' => rfl
    | original h' | l2l h' | sms h' | inner h' => rw [hx] at h'; cases h'
  | original hx =>
    intro h'
    cases h' with
    | prefixed h' => exact (noPre hx h' trivial).elim
    | joined h' => exact (noJoin hx h' trivial).elim
    | original h' => rw [hx] at h'; cases h'; rfl
    | raw h' | l2l h' | sms h' | inner h' => rw [hx] at h'; cases h'
  | l2l hx =>
    intro h'
    cases h' with
    | prefixed h' => exact (noPre hx h' trivial).elim
    | joined h' => exact (noJoin hx h' trivial).elim
    | l2l h' => rw [hx] at h'; cases h'; rfl
    | raw h' | original h' | sms h' | inner h' => rw [hx] at h'; cases h'
  | sms hx =>
    intro h'
    cases h' with
    | prefixed h' => exact (noPre hx h' trivial).elim
    | joined h' => exact (noJoin hx h' trivial).elim
    | sms h' => rw [hx] at h'; cases h'; rfl
    | raw h' | original h' | l2l h' | inner h' => rw [hx] at h'; cases h'
  | inner hx =>
    intro h'
    cases h' with
    | prefixed h' => exact (noPre hx h' trivial).elim
    | joined h' => exact (noJoin hx h' trivial).elim
    | inner h' => rw [hx] at h'; cases h'; rfl
    | raw h' | original h' | l2l h' | sms h' => rw [hx] at h'; cases h'

/-! ## Pairs -/

/-- A pair that tells what a node says has the contents of the node. -/
theorem contents_of_tells {t : StrTable JVal} {w : World} {k : Nat} {n : SmNode} {l : List (JVal × JVal)}
    (hin : n.In (hasDom t)) (hc : n.In (canonDom t)) (hl : Filled t n.cts l)
    (grown : ∃ x, w.strs.array = t.array ++ x) (hok : ∀ l ∈ n.leaves, LeafOk l)
    (tells : ∀ r, n.toStringWithSourceMap none none = .ok r → ∀ f,
      ∃ e, w.maps[k]? = some e ∧ e.Tells true r.source r.map f w.strs) : ShowsContents w k l := by
  obtain ⟨r, _, hr, -⟩ := C09_attribution_partial n none none hok
  have tells := tells r hr
  obtain ⟨-, g', hg⟩ := node_map hr
  have hmap := ((toStringWithGenerator_in hin none none).toSourceMap hg).1
  have hcan := ((toStringWithGenerator_in hc none none).toSourceMap hg).1.sources
  have hs := fun i hi => StrTable.Has.mono grown (hmap.sources i hi)
  have hx := fun i hi => StrTable.Has.mono grown (hmap.contents i hi)
  have hv := StrTable.values_get (t := w.strs) (ids := r.map.sources) fun i hi => (hs i hi).1
  have hn := StrTable.values_get (t := w.strs) (ids := r.map.sourcesContent) fun i hi => (hx i hi).1
  rw [List.map_congr_left fun i hi => (hs i hi).2] at hv
  rw [List.map_congr_left fun i hi => (hx i hi).2] at hn
  refine ⟨r.map.sources.map t.name, ?_, ?_⟩
  · obtain ⟨e, k1, k2⟩ := tells .sources
    exact Tells.reads k1 k2 ⟨_, hv, rfl⟩
  · obtain ⟨e, k1, k2⟩ := tells .contents
    have key : ∀ ids : List Int, (∀ i ∈ ids, Canon t (fun _ => True) i) →
        (ids.filterMap fun s => n.cts.lookup s).map t.name = contentsFor l (ids.map t.name) := by
      intro ids
      induction ids with
      | nil => intro _; rfl
      | cons i ids ih =>
        intro h
        have hi := hl i (h i (by simp))
        have ih := ih fun x hx => h x (by simp [hx])
        rw [List.filterMap_cons, List.map_cons, contentsFor, List.filterMap_cons, ← hi]
        cases n.cts.lookup i with
        | none => exact ih
        | some c => rw [List.map_cons, ih]; rfl
    refine Tells.reads k1 k2 ⟨_, hn, ?_⟩
    rw [C52_tree n none none r hr, key _ hcan]; rfl

theorem World.emit_contents {U : Pool} {st : List JThing} {made : List JOp} {w w1 w2 : World} {A : AHeap}
    {j k : Nat} {module_ : Bool} (I : w.Inv A st) (L : w.Labels made) (W : w.Within U) (hl : w.Lined)
    (hpos : Heap.In posDom w.heap) (hplain : ∀ o ∈ w.log, Spec.Op.PlainMaps o)
    (hst : ∀ o ∈ w.log, Spec.Op.StableMap o) (hr : ∀ op ∈ made, Spec.JOp.Exact op)
    (hmk : ∀ op ∈ made, Spec.JOp.makes op = true) (hu : Unreplaced st true (.obj j))
    (e : (JOp.sourceAndMap j true module_).run w = .ok (.pair k, w1)) (e2 : World.Lasts k w1 w2) :
    ∃ l, JGives st made (.obj j) l ∧ ShowsContents w2 k l := by
  simp only [JOp.run] at e
  unfold World.emit at e
  split at e
  · cases e
  rename_i o ho
  split at e
  · cases e
  simp only [if_true, Except.bind_ok_iff] at e
  obtain ⟨⟨a, w3⟩, h1, h2⟩ := e
  dsimp only at h2
  split at h2
  · rename_i n
    have hw := W.call (op := .node o.ptr true module_) trivial
    have hln := hl.call (op := .node o.ptr true module_) trivial
    rw [h1] at hw hln
    obtain ⟨g1, g2, g3, g4⟩ := hw
    obtain ⟨l1, l2, -⟩ := hln
    dsimp only at g1 g2 g3 g4 l1 l2
    obtain ⟨h', hn⟩ : ∃ h', apiNode w.heap o.ptr true module_ = .ok (n, h') := by
      simp only [World.call, Op.run] at h1
      cases hn : apiNode w.heap o.ptr true module_ with
      | error e => rw [hn] at h1; cases h1
      | ok p => rw [hn] at h1; simp only [Except.map] at h1; cases h1; exact ⟨_, rfl⟩
    have hp : n.In posDom := (Op.run_in (op := .node o.ptr true module_) (a := .node n) (h' := h') hpos trivial
      (by simp only [Op.run]; rw [hn]; rfl)).1
    obtain ⟨t, u, ht⟩ := (api_node_iff (stable_of_ops I.log hst) I.abs _ _ _ _).1 ⟨h', hn⟩
    have hit : Tree.itemNode true module_ t = .ok n := by
      cases t <;> first | exact ht | cases ht
    obtain ⟨-, k2, -⟩ := JPlaces.of_unfolds I L hr hmk u (.obj j) (tr_obj ho) hu _ hit
    obtain ⟨l, k3, k4⟩ := JGives.of_unfolds I L hr hmk hplain u (.obj j) (tr_obj ho) hu _ hit
    cases h2
    refine ⟨l, k3, ?_⟩
    have hin : n.In (hasDom w.strs) := SmNode.In.mono (dom_sub_has _) g2
    have grown : ∃ x, w2.strs.array = w.strs.array ++ x := by
      have := e2.array List.getElem?_concat_length
      rwa [← g3]
    refine contents_of_tells hin (canonDom_of g2 hp) k4 grown (fun l hm o ho =>
      ⟨fun e => (by rw [k2 l hm e] at ho; cases ho), SmNode.Lined.leaves l2 l hm o ho⟩) fun r hr f => ?_
    exact e2 _ (Tells.lasting true _ _ f) _ List.getElem?_concat_length (node_tells hr f _)
  · cases h2

theorem World.runFrom_plain {ops : List JOp} {w0 w : World} (H : ∀ o ∈ w0.log, Spec.Op.PlainMaps o)
    (r : w0.runFrom ops = .ok w) (hr : ∀ op ∈ ops, Spec.JOp.Exact op) : ∀ o ∈ w.log, Spec.Op.PlainMaps o := by
  obtain ⟨l, hlog, -, hof⟩ := World.runFrom_log r
  intro o ho
  rw [hlog] at ho
  rcases List.mem_append.1 ho with ho | ho
  · exact H o ho
  obtain ⟨op, hop, hof⟩ := hof o ho
  cases o <;> try trivial
  obtain ⟨-, n, m, o', i, rfl, ⟨h0, h1⟩, h2⟩ := hof
  obtain ⟨⟨ss, cs, ns, mp, rfl, -⟩, hpl⟩ := hr _ hop
  refine ⟨(h2 ss cs ns mp rfl).1, fun y hy => ?_⟩
  rw [hy] at h0
  cases i with
  | none => cases h0
  | some i =>
    obtain ⟨ss', cs', ns', mp', rfl, -⟩ := hpl _ rfl
    obtain ⟨ih, d', e1, e2, -⟩ := h1 ss' cs' ns' mp' rfl
    rw [hy] at e1; cases e1; exact e2

/-- C76: the maps given are well-formed ordinary objects, and no `ReplaceSource` is in the object. The statements
give one list of contents (`l`), and `sourcesContent` has the first ones in it for the files listed. Missing:
`ReplaceSource`s (false, `C52_not_general`), and maps that were emitted before. -/
theorem C76_partial (ops more : List JOp) (w w1 w2 : World) (j k : Nat) (module_ : Bool)
    (r : World.run ops = .ok w) (hp : ∀ op ∈ ops, op.Proper) (hf : ∀ op ∈ ops, Spec.JOp.FewLines op)
    (hr : ∀ op ∈ ops, Spec.JOp.Exact op) (hu : Unreplaced (jthings ops) true (.obj j))
    (e : (JOp.sourceAndMap j true module_).run w = .ok (.pair k, w1)) (e2 : w1.runFrom more = .ok w2)
    (hg : ∀ op ∈ more, ¬ op.gives k) (hset : ∀ a, .set k a ∉ more) :
    ∃ l, (∀ l', JGives (jthings ops) (jmade ops) (.obj j) l' ↔ l' = l) ∧ ShowsContents w2 k l := by
  obtain ⟨A, I⟩ := World.run_inv hp r
  have L := World.run_labels hp r
  have W := World.run_within ops
  rw [r] at W
  have W : w.Within (supplied ops) := W
  have hl := World.run_lined hf r
  obtain ⟨-, hlog⟩ := World.run_log r
  have hst : ∀ o ∈ w.log, Spec.Op.StableMap o := by
    intro o ho
    obtain ⟨op, hop, hof⟩ := hlog o ho
    cases o <;> try trivial
    obtain ⟨-, n, m, o', i, rfl, -, h1⟩ := hof
    obtain ⟨⟨ss, cs, ns, mp, rfl, -⟩, -⟩ := hr _ hop
    obtain ⟨-, d, hd, -⟩ := h1 ss cs ns mp rfl
    exact .inl (by rw [hd]; rfl)
  obtain ⟨l, h1, h2⟩ := World.emit_contents I L W hl (World.run_positive r hr)
    (World.runFrom_plain (w0 := .empty) (fun o ho => by cases ho) r hr) hst
    (fun op h => hr op (List.mem_filter.1 h).1) (fun op h => (List.mem_filter.1 h).2) hu e (.of_run e2 hg hset)
  have T : Together (jmade ops) (jthings ops) := by
    exact together ops (made := []) (st := []) ⟨rfl, fun j op x h => by simp at h⟩
  exact ⟨l, fun l' => ⟨fun h => JGives.unique T h1 h, fun h => h ▸ h1⟩, h2⟩

/-- With C75: every property of the pair is determined by the statements. -/
theorem C76_whole_partial (ops more : List JOp) (w w1 w2 : World) (j k : Nat) (module_ : Bool)
    (r : World.run ops = .ok w) (hp : ∀ op ∈ ops, op.Proper) (hf : ∀ op ∈ ops, Spec.JOp.FewLines op)
    (hr : ∀ op ∈ ops, Spec.JOp.Exact op) (hu : Unreplaced (jthings ops) false (.obj j))
    (e : (JOp.sourceAndMap j true module_).run w = .ok (.pair k, w1)) (e2 : w1.runFrom more = .ok w2)
    (hg : ∀ op ∈ more, ¬ op.gives k) (hset : ∀ a, .set k a ∉ more) :
    ∃ m l, (∀ m', JPlaces (jthings ops) (jmade ops) (.obj j) m' ↔ m' = m) ∧
      (∀ l', JGives (jthings ops) (jmade ops) (.obj j) l' ↔ l' = l) ∧ ShowsExactly w2 k m ∧
      Reads w2 k .contents (contentsRead (contentsFor l (filesOf m))) := by
  obtain ⟨m, h1, h2⟩ := C75_partial ops more w w1 w2 j k module_ r hp hf hr hu e e2 hg hset
  obtain ⟨l, h3, fs, h4, h5⟩ := C76_partial ops more w w1 w2 j k module_ r hp hf hr hu.mono e e2 hg hset
  cases reads_unique h4 h2.2.1
  exact ⟨m, l, h1, h3, h2, h5⟩

theorem contentsFor_all {l : List (JVal × JVal)} : ∀ {fs : List JVal}, (contentsFor l fs).length = fs.length ↔
    ∀ f ∈ fs, (l.lookup f).isSome = true
  | [] => by simp [contentsFor]
  | f :: fs => by
    have ih := contentsFor_all (l := l) (fs := fs)
    have hle : (contentsFor l fs).length ≤ fs.length := List.length_filterMap_le ..
    rw [contentsFor, List.filterMap_cons]
    cases h : l.lookup f with
    | none =>
      refine ⟨fun e => ?_, fun e => by have := e f (by simp); rw [h] at this; cases this⟩
      have e : (contentsFor l fs).length = fs.length + 1 := e
      omega
    | some c =>
      have : (contentsFor l fs).length = fs.length ↔ ∀ x ∈ f :: fs, (l.lookup x).isSome = true := by
        rw [ih]
        refine ⟨fun k x hx => ?_, fun k x hx => k x (by simp [hx])⟩
        rcases List.mem_cons.1 hx with rfl | hx
        · rw [h]; rfl
        · exact k x hx
      rw [← this]
      show (contentsFor l fs).length + 1 = fs.length + 1 ↔ _
      omega

/-- The contents are as many as the files exactly if each file has one, and then they are parallel. -/
theorem C76_parallel (l : List (JVal × JVal)) (fs : List JVal) :
    ((contentsFor l fs).length = fs.length ↔ ∀ f ∈ fs, (l.lookup f).isSome = true) ∧
    ((∀ f ∈ fs, (l.lookup f).isSome = true) →
      ∀ i : Nat, (contentsFor l fs)[i]? = fs[i]?.bind fun f => l.lookup f) := by
  refine ⟨contentsFor_all, ?_⟩
  induction fs with
  | nil => intro _ i; simp [contentsFor]
  | cons f fs ih =>
    intro h i
    obtain ⟨c, hc⟩ := Option.isSome_iff_exists.1 (h f (by simp))
    have e : contentsFor l (f :: fs) = c :: contentsFor l fs := by
      rw [contentsFor, List.filterMap_cons, hc]; rfl
    rw [e]
    cases i with
    | zero => simp [hc]
    | succ i => simpa using ih (fun x hx => h x (by simp [hx])) i

/-! ## All classes -/

theorem AOp.run_plain {w w' : AWorld} {t : CThings} (S : w.c.Sound t) (H : ∀ o ∈ w.base.log, Spec.Op.PlainMaps o)
    {op : AOp} (hs : Spec.AOp.Suited op) {a : AAnswer} (e : op.run w = .ok (a, w')) :
    ∀ o ∈ w'.base.log, Spec.Op.PlainMaps o := by
  have calm : ∀ {b b' : World}, b.Calm b' → (∀ o ∈ b.log, Spec.Op.PlainMaps o) →
      ∀ o ∈ b'.log, Spec.Op.PlainMaps o := by
    intro b b' C H o ho
    obtain ⟨l, hl, hr⟩ := C.log
    rw [hl] at ho
    rcases List.mem_append.1 ho with ho | ho
    · exact H o ho
    · have := (hr o ho).2
      cases o <;> first | trivial | cases this
  cases hc : Spec.AOp.onSources op with
  | some c =>
    obtain ⟨x, v, h1, rfl⟩ := AOp.run_onSources hc e
    obtain ⟨tr, h2, h3⟩ := COp.run_trace S h1
    refine World.runFrom_plain H h2 (forall_loud quiet_exact h3 fun o ho => ?_)
    cases c with
    | js p =>
      simp only [COp.plain] at ho
      split at ho
      · cases ho
      · cases List.mem_singleton.1 ho
        exact (hs.1 _ hc).2.2.2
    | newPrefix p y => cases List.mem_singleton.1 ho; trivial
    | newReplace y => cases List.mem_singleton.1 ho; trivial
    | newConcat ys => cases List.mem_singleton.1 ho; trivial
    | add j y => cases List.mem_singleton.1 ho; trivial
    | _ => cases ho
  | none =>
    rcases AOp.run_others hc e with ⟨o, x, v, hj, h, rfl, -⟩ | ⟨o, x, v, hj, h, rfl, -⟩
    · exact calm (NOp.run_calm (w := w.n) hj h) H
    · exact calm (LOp.run_calm (w := w.l) hj h) H

theorem AWorld.runFrom_plain : ∀ {ops : List AOp} {w w' : AWorld} {t : CThings}, w.c.Sound t →
    (∀ o ∈ w.base.log, Spec.Op.PlainMaps o) → (∀ op ∈ ops, Spec.AOp.Suited op) → w.runFrom ops = .ok w' →
    ∀ o ∈ w'.base.log, Spec.Op.PlainMaps o
  | [], _, _, _, _, H, _, e => by cases e; exact H
  | op :: ops, w, w', t, S, H, hs, e => by
    simp only [AWorld.runFrom, Except.bind_ok_iff] at e
    obtain ⟨⟨a, w1⟩, h1, h2⟩ := e
    have S1 := AWorld.runFrom_sound (ops := [op]) (w' := w1) S
      (fun o ho => by cases List.mem_singleton.1 ho; exact Suited.proper (hs op (by simp)))
      (by simp [AWorld.runFrom, h1, Except.bind])
    exact AWorld.runFrom_plain S1 (AOp.run_plain S H (hs op (by simp)) h1) (fun o ho => hs o (by simp [ho])) h2

theorem AInv.contents {w : AWorld} {ops : List AOp} {s : AState} (I : AInv U w s) (h : TellsAll .start ops s)
    (r : AWorld.run ops = .ok w) (hs : ∀ op ∈ ops, Spec.AOp.Suited op) {j k : Nat}
    {md : Bool} {b b2 : World} (hu : Unreplaced (cthings (sourceOps ops)).things true (.obj j))
    (e : (JOp.sourceAndMap j true md).run w.base = .ok (.pair k, b)) (e2 : World.Lasts k b b2) :
    ∃ l, JGives (cthings (sourceOps ops)).things (jmade (cplain (sourceOps ops))) (.obj j) l ∧
      ShowsContents b2 k l := by
  have H := AWorld.run_positive r hs
  have P := AWorld.runFrom_plain (w := .empty) AWorld.empty_sound
    (fun o h => by simp [AWorld.empty, World.empty] at h) hs r
  obtain ⟨h3, h4⟩ := TellsAll.sources h
  obtain ⟨A, J⟩ := I.lists.backed.inv
  rw [← h3] at hu ⊢
  rw [← h4, ← I.things] at *
  exact World.emit_contents J I.lists.backed.labels I.nodes.base I.nodes.lined H P I.lists.backed.stable
    (fun op h => I.exact op (List.mem_filter.1 h).1) (fun op h => (List.mem_filter.1 h).2) hu e e2

/-- C76 in programs over all classes. Missing: what is missing in `C76_partial`. -/
theorem C76_all_partial (ops more : List AOp) (w w1 w2 : AWorld) (j k : Nat) (module_ : Bool)
    (r : AWorld.run ops = .ok w) (hs : ∀ op ∈ ops, Spec.AOp.Suited op)
    (hu : Unreplaced (cthings (sourceOps ops)).things true (.obj j))
    (e : (AOp.c (.js (.sourceAndMap j true module_))).run w = .ok (.c (.js (.pair k)), w1))
    (hm : ∀ o ∈ more, ∀ c, Spec.AOp.onSources o = some c → c.Proper) (hk : ∀ o ∈ more, Spec.AOp.Spares k o)
    (e2 : w1.runFrom more = .ok w2) :
    ∃ l, JGives (cthings (sourceOps ops)).things (jmade (cplain (sourceOps ops))) (.obj j) l ∧
      ShowsContents w2.base k l := by
  obtain ⟨s, h, I⟩ := AInv.of_run r hs
  have e3 := AWorld.then_lasts I.sound (fun c hc => by cases hc; trivial) e hm hk e2
  obtain ⟨x, h1, h2⟩ := AOp.run_js e
  cases h2
  exact I.contents h r hs hu h1 e3

/-- C76 for a map with columns that a `CachedSource` returns: the contents are those of when the map was made. -/
theorem C76_cached_partial (lo ops more : List AOp) (w w1 w2 : AWorld) (op : AOp) (x : AAnswer) (k m : Nat)
    (o : Option JOpts) (hs : ∀ op ∈ lo ++ ops, Spec.AOp.Suited op)
    (hm : ∀ o ∈ more, ∀ c, Spec.AOp.onSources o = some c → c.Proper) (hlo : ∀ op ∈ lo, Spec.AOp.asked op = none)
    (r : AWorld.run (lo ++ ops) = .ok w) (ha : Spec.AOp.asked op = some (k, o)) (hc : asksColumns o = true)
    (e : op.run w = .ok (x, w1)) (hx : Spec.AAnswer.theMap x = some (some m))
    (hk : ∀ o ∈ ops ++ more, Spec.AOp.Spares m o) (e2 : w1.runFrom more = .ok w2) :
    ∃ j a rest, ops = a ++ rest ∧ (cthings (sourceOps (lo ++ ops))).stands[k]? = some j ∧
      (Unreplaced (cthings (sourceOps (lo ++ a))).things true (.obj j) →
        ∃ l, JGives (cthings (sourceOps (lo ++ a))).things (jmade (cplain (sourceOps (lo ++ a)))) (.obj j) l ∧
          ShowsContents w2.base m l) := by
  obtain ⟨j, a, rest, u, c, md, b1, h1, h2, h3, h4, h5, h6⟩ := AWorld.origin lo ops more w w1 w2 op x k m o
    (fun q hq => by
      rcases List.mem_append.1 hq with hq | hq
      · exact Suited.proper (hs q hq)
      · exact hm q hq) hlo r ha e hx hk e2
  refine ⟨j, a, rest, h1, h2, fun hu => ?_⟩
  obtain rfl : c = true := by rcases h4 with ⟨h, -⟩ | ⟨h, -⟩ <;> simp [h, hc]
  have hs' : ∀ q ∈ lo ++ a, Spec.AOp.Suited q := fun q hq => hs q (by
    rcases List.mem_append.1 hq with hq | hq <;> simp [h1, hq])
  obtain ⟨s, h, I⟩ := AInv.of_run h3 hs'
  exact I.contents h h3 hs' hu h5 h6

/-! Non-trivial case: two parts give a content for "a.js", and the first counts; the outer map and `originalSource`
both give one for "g.js", and the outer map counts; "h.js" has its content from a later part than the one that
refers to it first; "k.js" has none and is left out; "z.js" is not referred to. -/

/-- The program. -/
def c76Program : List JOp :=
  [.newOriginal "a;b\n".toList "a.js".toList,
   .newSms "pq\nr\n".toList "g.js".toList (.plain [some "g.js".toList, some "h.js".toList] [some "outer".toList] []
     "AAAA,CCEA;ADAA".toList) (some "given".toList)
     (some (.plain [some "i.js".toList, some "a.js".toList] [some "I".toList, some "A".toList] [] "ACCE".toList)),
   .newSms "s\nt\n".toList "s.js".toList (.plain [some "z.js".toList, some "k.js".toList, some "h.js".toList]
     [some "Z".toList] [] "ACCA;ACAA".toList) none none,
   .newL2l "u".toList "h.js".toList "H".toList,
   .newConcat [.obj 0, .obj 1], .newPrefix "> ".toList (.obj 4), .newConcat [.obj 5, .obj 2, .obj 3]]

/-- The contents given. -/
def c76Given : List (JVal × JVal) :=
  [("a.js", "a;b\n"), ("g.js", "outer"), ("g.js", "given"), ("i.js", "I"), ("a.js", "A"), ("z.js", "Z"),
   ("h.js", "H")].map fun p => (some p.1.toList, some p.2.toList)

example : (∀ op ∈ c76Program, op.Proper) ∧ (∀ op ∈ c76Program, Spec.JOp.FewLines op) ∧
    ∀ op ∈ c76Program, Spec.JOp.Exact op := by
  refine ⟨?_, ?_, ?_⟩
  · simp [c76Program, JOp.Proper]
  · simp only [c76Program, List.forall_mem_cons, Spec.JOp.FewLines]
    unfold Spec.FewLines
    exact ⟨by decide, by decide, by decide, by decide, trivial, trivial, trivial, by simp⟩
  · intro op h
    simp only [c76Program, List.mem_cons, List.not_mem_nil, or_false] at h
    rcases h with rfl | rfl | rfl | rfl | rfl | rfl | rfl
    · trivial
    · refine ⟨⟨_, _, _, _, rfl, [⟨1, 0, some ⟨0, 1, 0, none⟩⟩, ⟨1, 1, some ⟨1, 3, 0, none⟩⟩, ⟨2, 0, some ⟨0, 3, 0, none⟩⟩],
        by decide +kernel, by simp [Point.Small], by simp [Point.Lt], by decide +kernel⟩, ?_⟩
      intro i hi
      cases hi
      exact ⟨_, _, _, _, rfl, [⟨1, 0, some ⟨1, 2, 2, none⟩⟩],
        by decide +kernel, by simp [Point.Small], by simp [Point.Lt], by decide +kernel⟩
    · exact ⟨⟨_, _, _, _, rfl, [⟨1, 0, some ⟨1, 2, 0, none⟩⟩, ⟨2, 0, some ⟨2, 2, 0, none⟩⟩],
        by decide +kernel, by simp [Point.Small], by simp [Point.Lt], by decide +kernel⟩,
        fun i hi => by cases hi⟩
    all_goals trivial
example : Unreplaced (jthings c76Program) false (.obj 6) := by
  refine .joined (items := [.obj 5, .obj 2, .obj 3]) (by decide +kernel) ?_
  intro i hi
  simp only [List.mem_cons, List.not_mem_nil, or_false] at hi
  rcases hi with rfl | rfl | rfl
  · refine .prefixed (p := "> ".toList) (c := .obj 4) (by decide +kernel) ?_
    refine .joined (items := [.obj 0, .obj 1]) (by decide +kernel) ?_
    intro i hi
    simp only [List.mem_cons, List.not_mem_nil, or_false] at hi
    rcases hi with rfl | rfl <;> exact .leaf rfl
  all_goals exact .leaf rfl

theorem c76_gives : JGives (jthings c76Program) (jmade c76Program) (.obj 6) c76Given := by
  refine .joined (items := [.obj 5, .obj 2, .obj 3]) (ls := [c76Given.take 5, (c76Given.drop 5).take 1, c76Given.drop 6])
    (by decide +kernel) rfl ?_
  have h4 : JGives (jthings c76Program) (jmade c76Program) (.obj 4) (c76Given.take 5) := by
    refine .joined (items := [.obj 0, .obj 1]) (ls := [c76Given.take 1, (c76Given.take 5).drop 1])
      (by decide +kernel) rfl ?_
    intro k i l h1 h2
    match k with
    | 0 => cases h1; cases h2; exact .original rfl
    | 1 =>
      cases h1; cases h2
      exact .inner (n := "g.js".toList) (o := some "given".toList)
        (ss := [some "g.js".toList, some "h.js".toList]) (cs := [some "outer".toList])
        (ss' := [some "i.js".toList, some "a.js".toList]) (cs' := [some "I".toList, some "A".toList]) rfl
    | k + 2 => cases h1
  intro k i l h1 h2
  match k with
  | 0 => cases h1; cases h2; exact .prefixed (p := "> ".toList) (c := .obj 4) (by decide +kernel) h4
  | 1 =>
    cases h1; cases h2
    exact .sms (ss := [some "z.js".toList, some "k.js".toList, some "h.js".toList]) (cs := [some "Z".toList]) rfl
  | 2 => cases h1; cases h2; exact .l2l (n := "h.js".toList) (o := "H".toList) rfl
  | k + 3 => cases h1

example : contentsFor c76Given (["a.js", "h.js", "g.js", "k.js"].map (some ∘ String.toList)) =
    ["a;b\n", "H", "outer"].map (some ∘ String.toList) := by decide +kernel
example : ((World.run (c76Program ++ [.sourceAndMap 6 true true])).toOption.map fun w =>
    [JField.source, .sources, .contents].map fun f => ((JOp.get 0 f).run w).toOption.map Prod.fst) =
    some [some (.field (.text "> a;b\n> pq\n> r\ns\nt\nu".toList)),
      some (.field (.list (["a.js", "h.js", "g.js", "k.js"].map (some ∘ String.toList)))),
      some (.field (.list (["a;b\n", "H", "outer"].map (some ∘ String.toList))))] := by decide +kernel

/-- The list of contents says which file a content is of only if none is left out: reading it by position, as the
format of source maps has it, gives "h.js" the content of another file here. -/
theorem C76_not_parallel : ((World.run [.newSms "a\nb".toList "x".toList
      (.plain [some "k.js".toList, some "h.js".toList] [] [] "AAAA;ACAA".toList) none none,
      .newL2l "c".toList "h.js".toList "H".toList, .newConcat [.obj 0, .obj 1],
      .sourceAndMap 2 true true]).toOption.map fun w =>
    [JField.sources, .contents].map fun f => ((JOp.get 0 f).run w).toOption.map Prod.fst) =
    some [some (.field (.list [some "k.js".toList, some "h.js".toList])),
      some (.field (.list [some "H".toList]))] := by decide +kernel

/-! In programs over all classes: the program of C74, whose hypotheses are shown there. -/

example : JGives (cthings (sourceOps c74Program)).things (jmade (cplain (sourceOps c74Program))) (.obj 1)
    [(some "a.js".toList, some "a;b\nc".toList)] := by
  rw [show (cthings (sourceOps c74Program)).things =
    [.leaf "a;b\nc".toList [], .prefixed "> ".toList (.obj 0)] by decide +kernel]
  exact .prefixed rfl (.original (by decide +kernel))
example : (answersFrom AWorld.empty (c74Program ++ [.c (.both 0 none), .c (.js (.get 0 .contents)),
      .c (.js (.sourceAndMap 1 true true)), .c (.js (.get 1 .contents))])).drop 11 =
    [.c (.both "a;b\nc".toList (some 0)), .c (.js (.field (.list [some "a;b\nc".toList]))),
     .c (.js (.pair 1)), .c (.js (.field (.list [some "a;b\nc".toList])))] := by decide +kernel

end WS
