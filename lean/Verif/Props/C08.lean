import Verif.Proofs.LineWise
import Verif.Props.C04
import Verif.Props.C06
import Verif.Props.C07
/-! # C08 The text that accompanies the line-level map is `source()` -/

namespace WS
open Spec

/-- A request for a range that does not end before it begins; the sixteenths that order requests for
the same characters are sixteenths. -/
def Spec.Request.Proper (r : Request) : Prop :=
  r.start ≤ r.stop ∧ 0 ≤ r.ordS ∧ r.ordS < 16 ∧ 0 ≤ r.ordE ∧ r.ordE < 16

/-- Neither range lies within the other: the one that ends first (counting the sixteenths) does not
begin behind the beginning of the other. They may well overlap. -/
def Spec.Unnested (a b : Request) : Prop :=
  (a.start ≤ b.start ∧ a.stop * 16 + a.ordE ≤ b.stop * 16 + b.ordE) ∨
  (b.start ≤ a.start ∧ b.stop * 16 + b.ordE ≤ a.stop * 16 + a.ordE)

/-- Of the requests made to a `ReplaceSource`, none lies within another. -/
def Spec.EditsUnnested (ops : List Op) : Prop :=
  ∀ (j : Nat) (c : Src), (created ops)[j]? = some (.newReplace c) →
    (∀ r ∈ requests ops j, r.Proper) ∧ (requests ops j).Pairwise Unnested

/-- What every `PrefixSource` wraps hands out its text line by line: the pieces its list map is
rewritten in (`src/source_list_map/source_list_map.rs:115-132`) all end with a newline except for the
last, and none is empty unless it is the only one. -/
def Spec.PiecesAreLines (ops : List Op) (h : Heap) (module_ : Bool) : Prop :=
  ∀ (j : Nat) (p : List Char) (k : Nat), (created ops)[j]? = some (.newPrefix p (.ref k)) →
    ∀ m g, apiListMap h k false module_ = .ok (m, g) → p = [] ∨ Aligned (normCodes m)

theorem Spec.Unnested.symm {a b : Request} (h : Unnested a b) : Unnested b a := Or.symm h

theorem edits_climbing {rs : List Request} (hw : ∀ r ∈ rs, r.Proper) (hd : rs.Pairwise Unnested) :
    Climbing ((sortedCalls (rs.map Request.call)).map Repl.edit).reverse := by
  have hperm : ((sortedCalls (rs.map Request.call)).map Repl.call).Perm (rs.map Request.call) := by
    have h1 := (sortBy_perm (le := Repl.le) (tag 0 (rs.map Request.call))).map Repl.call
    rwa [show (tag 0 (rs.map Request.call)).map Repl.call = rs.map Request.call from tag_call _ _] at h1
  have hd' : (rs.map Request.call).Pairwise fun a b =>
      (a.s / 16 ≤ b.s / 16 ∧ a.e ≤ b.e) ∨ (b.s / 16 ≤ a.s / 16 ∧ b.e ≤ a.e) := by
    rw [List.pairwise_map]
    refine List.Pairwise.imp_of_mem ?_ hd
    intro a b ha hb h
    have h1 := hw a ha
    have h2 := hw b hb
    simp only [Spec.Request.Proper] at h1 h2
    simp only [Unnested] at h
    simp only [Request.call]
    omega
  have hd2 := (hperm.pairwise_iff (by intro a b h; exact Or.symm h)).2 hd'
  rw [map_edit, Climbing]
  constructor
  · intro e he
    obtain ⟨c, hc, rfl⟩ := List.mem_map.1 (List.mem_reverse.1 he)
    obtain ⟨r, hr, rfl⟩ := List.mem_map.1 (hperm.mem_iff.1 hc)
    have h1 := hw r hr
    simp only [Spec.Request.Proper] at h1
    simp only [Request.call, Call.edit]
    omega
  · rw [List.pairwise_reverse, List.pairwise_map]
    refine (List.pairwise_and_iff.2 ⟨sortedCalls_keys (rs.map Request.call), hd2⟩).imp ?_
    rintro a b ⟨h1, h2⟩
    simp only [keyGt, Call.key, Prod.mk.injEq] at h1
    simp only [Call.edit]
    omega

/-- Whole ranges that do not meet. -/
theorem Spec.EditsUnnested.of_disjoint {ops : List Op}
    (h : ∀ (j : Nat) (c : Src), (created ops)[j]? = some (.newReplace c) →
      (∀ r ∈ requests ops j, r.Whole) ∧ Disjoint (requests ops j)) : EditsUnnested ops := by
  intro j c hc
  obtain ⟨h1, h2⟩ := h j c hc
  constructor
  · intro r hr
    have := h1 r hr
    simp only [Spec.Request.Whole] at this
    simp only [Spec.Request.Proper]
    omega
  · refine List.Pairwise.imp_of_mem ?_ h2
    intro a b ha hb h
    have h3 := h1 a ha
    have h4 := h1 b hb
    simp only [Spec.Request.Whole] at h3 h4
    simp only [Unnested]
    omega

/-- The object made by a `newReplace`. -/
theorem replace_created {ops : List Op} {A : AHeap} (hA : stepAll [] ops = .ok A) {i : Nat} {c : Src}
    {cs : List Call} (e : A[i]? = some (.replace c cs)) :
    (created ops)[i]? = some (.newReplace c) ∧ cs = (requests ops i).map Request.call := by
  have D := stepAll_described hA i
  rw [e] at D
  cases hc : (created ops)[i]? with
  | none => rw [hc] at D; cases D
  | some op =>
    rw [hc] at D
    cases op <;> simp [objOf] at D
    rw [D.1]
    exact ⟨rfl, D.2⟩

/-- The object made by a `newPrefix`. -/
theorem prefix_created {ops : List Op} {A : AHeap} (hA : stepAll [] ops = .ok A) {i : Nat} {p : Str} {c : Src}
    (e : A[i]? = some (.prefixed p c)) : (created ops)[i]? = some (.newPrefix p c) := by
  have D := stepAll_described hA i
  rw [e] at D
  cases hc : (created ops)[i]? with
  | none => rw [hc] at D; cases D
  | some op =>
    rw [hc] at D
    cases op <;> simp [objOf] at D
    rw [D.1, D.2]

theorem linesFits_of {cols mod : Bool} {R : Src → Tree → Prop} : ∀ {cs : List Src} {ts : List Tree},
    ts.length = cs.length →
    (∀ (k : Nat) (c : Src) (t : Tree), cs[k]? = some c → ts[k]? = some t → R c t) →
    (∀ c t, R c t → t.LinesFit cols mod) → Tree.LinesFits cols mod ts
  | _, [], _, _, _ => trivial
  | [], _ :: _, hl, _, _ => by simp at hl
  | c :: cs, t :: ts, hl, h, hR =>
    ⟨hR c t (h 0 c t rfl rfl), linesFits_of (cs := cs) (by simpa using hl) (fun k c t hc ht => h (k + 1) c t hc ht) hR⟩

/-- The trees of a history, however its sources with maps have been read. -/
theorem Seen.linesFit {ops : List Op} {A : AHeap} (hA : stepAll [] ops = .ok A) (he : EditsUnnested ops)
    (mod : Bool)
    (hp : ∀ (j : Nat) (p : Str) (c : Src), (created ops)[j]? = some (.newPrefix p c) → ∀ t, Seen A c t →
      ∀ m, t.listMap false mod = .ok m → p = [] ∨ Aligned (normCodes m))
    {src : Src} {t : Tree} (hs : Seen A src t) : t.LinesFit false mod := by
  induction hs with
  | prefixed e hst ih => exact ⟨ih, hp _ _ _ (prefix_created hA e) _ hst⟩
  | replace e _ ih =>
    obtain ⟨h1, rfl⟩ := replace_created hA e
    exact ⟨ih, edits_climbing (he _ _ h1).1 (he _ _ h1).2⟩
  | @concat i cs ts e hl hk ih =>
    rw [Tree.LinesFit]
    exact linesFits_of (R := fun _ t => t.LinesFit false mod) hl ih (fun _ _ h => h)
  | _ => trivial

theorem Unfolds.linesFit {ops : List Op} {A : AHeap} (hA : stepAll [] ops = .ok A) (he : EditsUnnested ops)
    (mod : Bool)
    (hp : ∀ (j : Nat) (p : Str) (c : Src), (created ops)[j]? = some (.newPrefix p c) → ∀ t, Unfolds A c t →
      ∀ m, t.listMap false mod = .ok m → p = [] ∨ Aligned (normCodes m))
    {src : Src} {t : Tree} (hs : Unfolds A src t) : t.LinesFit false mod := by
  induction hs with
  | prefixed e hst ih => exact ⟨ih, hp _ _ _ (prefix_created hA e) _ hst⟩
  | replace e _ ih =>
    obtain ⟨h1, rfl⟩ := replace_created hA e
    exact ⟨ih, edits_climbing (he _ _ h1).1 (he _ _ h1).2⟩
  | @concat i cs ts e hl hk ih =>
    rw [Tree.LinesFit]
    exact linesFits_of (R := fun _ t => t.LinesFit false mod) hl ih (fun _ _ h => h)
  | _ => trivial

/-- What `sourceAndMap({columns: false})` computes. -/
theorem api_lines_result {h g : Heap} {i : Nat} {mod : Bool} {file : Option Int} {r : StringWithSourceMap}
    (hr : apiSourceAndMap h i false mod file = .ok (r, g)) :
    ∃ m, apiListMap h i false mod = .ok (m, g) ∧ r = slmToStringWithSourceMap m file := by
  rw [apiSourceAndMap, if_neg (by decide)] at hr
  split at hr
  · cases hr
  · rename_i m g' e
    cases hr
    exact ⟨m, e, rfl⟩

/-- C08, for histories whose edits do not lie within each other and whose `PrefixSource`s wrap sources that hand out
their text line by line: whenever `sourceAndMap({columns: false})` returns, its text is what `source()`
returns. Missing for the full claim: see `C08_not_general`. -/
theorem C08_text_partial (ops : List Op) (h : Heap) (i : Nat) (module_ : Bool) (file : Option Int)
    (r : StringWithSourceMap) (g : Heap) (hrun : run ops = .ok h)
    (hst : ∀ op ∈ ops, Spec.Op.StableMap op) (he : EditsUnnested ops) (hp : PiecesAreLines ops h module_)
    (hr : apiSourceAndMap h i false module_ file = .ok (r, g)) : ReadsAs h (.ref i) r.source := by
  obtain ⟨A, hA, H⟩ := run_abs hrun
  have S := stable_of_ops hA hst
  obtain ⟨m, hm, rfl⟩ := api_lines_result hr
  obtain ⟨t, hu, ht⟩ := (api_listMap_iff S H i false module_ m).1 ⟨g, hm⟩
  have hf : t.LinesFit false module_ := by
    refine hu.linesFit hA he module_ (fun j p c hc t' hu' m' hm' => ?_)
    cases c with
    | str s => cases hu'; cases hm'
    | ref k =>
      obtain ⟨g', e⟩ := (api_listMap_iff S H k false module_ m').2 ⟨t', hu', hm'⟩
      exact hp j p k hc m' g' e
  refine (readsAs_iff H _ _).2 ⟨t, hu, ?_⟩
  exact ((Tree.listMap_text false module_ t m ht).2 hf).symm

/-- What hands out its text line by line: strings and sources of one text; `SourceMapSource`s, unless
their map is read and the text ends with a newline; prefixed ones of these; and concatenations of these
that are not empty, whose items all end with a newline except for the last, none being empty unless it
is the only one. -/
inductive Spec.LineWise (ops : List Op) (h : Heap) (module_ : Bool) : Src → Prop
  | str (s : List Char) : LineWise ops h module_ (.str s)
  | raw {k : Nat} {v : List Char} : (created ops)[k]? = some (.newRaw v) → LineWise ops h module_ (.ref k)
  | original {k : Nat} {v : List Char} {n o : Int} : (created ops)[k]? = some (.newOriginal v n o) →
      LineWise ops h module_ (.ref k)
  | l2l {k : Nat} {v : List Char} {n o : Int} : (created ops)[k]? = some (.newL2l v n o) →
      LineWise ops h module_ (.ref k)
  | sms {k : Nat} {v : List Char} {vi n : Int} {m : SmHolder} {o : Option Int} {inner : Option SmHolder} :
      (created ops)[k]? = some (.newSms v vi n m o inner) → module_ = false ∨ v.getLast? ≠ some '\n' →
      LineWise ops h module_ (.ref k)
  | prefixed {k : Nat} {p : List Char} {c : Src} : (created ops)[k]? = some (.newPrefix p c) →
      LineWise ops h module_ c → LineWise ops h module_ (.ref k)
  | concat {k : Nat} : (created ops)[k]? = some .newConcat → (∀ c ∈ items ops k, LineWise ops h module_ c) →
      (∀ ss, ReadAll h (items ops k) ss → Aligned ss) → LineWise ops h module_ (.ref k)

theorem readAll_seen {A : AHeap} {h : Heap} (H : Abs A h) : ∀ {cs : List Src} {ts : List Tree},
    ts.length = cs.length →
    (∀ (k : Nat) (c : Src) (t : Tree), cs[k]? = some c → ts[k]? = some t → Seen A c t) →
    ReadAll h cs (Tree.texts ts)
  | [], [], _, _ => trivial
  | [], _ :: _, hl, _ => by simp at hl
  | _ :: _, [], hl, _ => by simp at hl
  | c :: cs, t :: ts, hl, hk => by
    obtain ⟨t', hu, ht⟩ := (hk 0 c t rfl rfl).text
    exact ⟨(readsAs_iff H _ _).2 ⟨t', hu, ht⟩,
      readAll_seen H (by simpa using hl) (fun k c t hc ht => hk (k + 1) c t hc ht)⟩

theorem Seen.lineWise {ops : List Op} {A : AHeap} {h : Heap} (hA : stepAll [] ops = .ok A) (H : Abs A h)
    (he : EditsUnnested ops) (mod : Bool)
    (hp : ∀ (j : Nat) (p : Str) (c : Src), (created ops)[j]? = some (.newPrefix p c) → LineWise ops h mod c)
    {src : Src} {t : Tree} (hs : Seen A src t) : t.LinesFit false mod ∧
      (LineWise ops h mod src → ∀ m, t.listMap false mod = .ok m → LinesMap m) := by
  have inv : ∀ {k : Nat} {a : AObj}, A[k]? = some a → ∀ {op : Op}, (created ops)[k]? = some op →
      objOf ops k op = some a := by
    intro k a ha op hop
    have := object_of_created hA hop
    rw [ha] at this
    exact this.symm
  induction hs with
  | str s => exact ⟨trivial, fun _ m hm => by cases hm⟩
  | raw e => exact ⟨trivial, fun _ m hm => by cases hm; exact slmNewStr_lines _ _ _⟩
  | original e => exact ⟨trivial, fun _ m hm => by cases hm; exact slmNewStr_lines _ _ _⟩
  | l2l e => exact ⟨trivial, fun _ m hm => by cases hm; exact slmNewStr_lines _ _ _⟩
  | @sms i s₀ s e hr =>
    refine ⟨trivial, fun hl m hm => ?_⟩
    have hcase : mod = false ∨ s.value.getLast? ≠ some '\n' := by
      cases hl with
      | sms hk h2 =>
        have := inv e hk
        simp only [objOf, Option.some.injEq, AObj.sms.injEq] at this
        rw [hr.value, ← this]
        exact h2
      | raw hk => cases inv e hk
      | original hk => cases inv e hk
      | l2l hk => cases inv e hk
      | prefixed hk _ => cases inv e hk
      | concat hk _ _ => cases inv e hk
    rw [Tree.listMap, Sms.listMap] at hm
    split at hm
    · cases hm; exact slmNewStr_lines s.value (some s.name) (some s.valueIdx)
    · rename_i hb
      have hv := hcase.resolve_left (by simpa using hb)
      split at hm
      · cases hm
      · split at hm
        · cases hm
        · rename_i d map _ x e
          cases hm
          exact slmFromString_lines hv e
  | @prefixed i p c t e hst ih =>
    have hc := hp _ _ _ (prefix_created hA e)
    refine ⟨⟨ih.1, fun m hm => .inr (ih.2 hc m hm).aligned.1⟩, fun _ m hm => ?_⟩
    rw [Tree.listMap] at hm
    cases hx : t.listMap false mod with
    | error x => rw [hx] at hm; cases hm
    | ok x => rw [hx] at hm; cases hm; exact prefixListMap_lines p (ih.2 hc x hx)
  | @replace i c cs t e _ ih =>
    obtain ⟨h1, rfl⟩ := replace_created hA e
    refine ⟨⟨ih.1, edits_climbing (he _ _ h1).1 (he _ _ h1).2⟩, fun hl m hm => ?_⟩
    cases hl with
    | raw hk => cases hk.symm.trans h1
    | original hk => cases hk.symm.trans h1
    | l2l hk => cases hk.symm.trans h1
    | sms hk _ => cases hk.symm.trans h1
    | prefixed hk _ => cases hk.symm.trans h1
    | concat hk _ _ => cases hk.symm.trans h1
  | @concat i cs ts e hl hk ih =>
    refine ⟨?_, fun hlw m hm => ?_⟩
    · rw [Tree.LinesFit]
      exact linesFits_of (R := fun _ t => t.LinesFit false mod) hl (fun k c t h1 h2 => (ih k c t h1 h2).1)
        (fun _ _ h => h)
    · have hitems : cs = items ops i ∧ (∀ c ∈ items ops i, LineWise ops h mod c) ∧
          ∀ ss, ReadAll h (items ops i) ss → Aligned ss := by
        cases hlw with
        | concat hc h1 h2 =>
          have := inv e hc
          simp only [objOf, Option.some.injEq, AObj.concat.injEq] at this
          exact ⟨this.symm, h1, h2⟩
        | raw hk => cases inv e hk
        | original hk => cases inv e hk
        | l2l hk => cases inv e hk
        | sms hk _ => cases inv e hk
        | prefixed hk _ => cases inv e hk
      obtain ⟨rfl, hw, hal⟩ := hitems
      rw [Tree.listMap] at hm
      cases hx : Tree.listMaps false mod ts with
      | error x => rw [hx] at hm; cases hm
      | ok xs =>
        rw [hx] at hm; cases hm
        have htx := (Tree.listMaps_text false mod ts xs hx).2 (linesFits_of
          (R := fun _ t => t.LinesFit false mod) hl (fun k c t h1 h2 => (ih k c t h1 h2).1) (fun _ _ h => h))
        apply concatMaps_lines
        · intro n hn; cases hn
        · intro l hmem
          rw [Tree.listMaps_eq] at hx
          obtain ⟨k, t, ht, hit⟩ := allM_mem hx _ hmem
          have hlt : k < (items ops i).length := by
            rw [← hl]; exact (List.getElem?_eq_some_iff.1 ht).1
          have hc : (items ops i)[k]? = some (items ops i)[k] := List.getElem?_eq_getElem hlt
          refine (ih k _ t hc ht).2 (hw _ (List.getElem_mem hlt)) l ?_
          have hinr : ∀ {r : M Slm}, r.map Sum.inr = Except.ok (Sum.inr l : Str ⊕ Slm) → r = .ok l := by
            intro r hr
            cases r with
            | error e => cases hr
            | ok l => cases hr; rfl
          cases t with
          | str s => cases hit
          | _ => exact hinr hit
        · rw [htx]
          exact hal _ (readAll_seen H hl hk)

/-- C08, for histories whose edits do not lie within each other and whose `PrefixSource`s wrap sources that hand out
their text line by line; the `SourceMapSource`s read in any way. -/
theorem C08_linewise_partial (ops : List Op) (h : Heap) (i : Nat) (module_ : Bool) (file : Option Int)
    (r : StringWithSourceMap) (g : Heap) (hrun : run ops = .ok h) (he : EditsUnnested ops)
    (hp : ∀ (j : Nat) (p : List Char) (c : Src), (created ops)[j]? = some (.newPrefix p c) →
      LineWise ops h module_ c)
    (hr : apiSourceAndMap h i false module_ file = .ok (r, g)) : ReadsAs h (.ref i) r.source := by
  obtain ⟨A, hA, H⟩ := run_abs hrun
  obtain ⟨m, hm, rfl⟩ := api_lines_result hr
  obtain ⟨t, hs, ht⟩ := hListMap_seen A false module_ _ _ _ _ _ _ H hm
  have hf := (hs.lineWise hA H he module_ hp).1
  obtain ⟨t', hu, ht'⟩ := hs.text
  refine (readsAs_iff H _ _).2 ⟨t', hu, ?_⟩
  rw [ht']
  exact ((Tree.listMap_text false module_ t m ht).2 hf).symm

/-- `sourceAndMap({columns: false}).source` and `source()` of object `i` after a history. -/
def bothLineTexts (ops : List Op) (i : Nat) : Option (String × String) :=
  (run ops).toOption.bind fun h =>
    (apiSourceAndMap h i false true none).toOption.bind fun r =>
      (apiSource h i).toOption.map fun s => (String.ofList r.1.source, String.ofList s.1)

/-- C08 fails in general. A prefix lands in the middle of a line where two sources share it, behind
text inserted at the beginning of a line, once more behind the trailing newline of a `SourceMapSource`, and nowhere for an empty concatenation
(`src/prefix_source.rs:90-96` indents piece by piece); nested replacements remove other
characters here (`src/replace_source.rs:211-243`, left to right) than in `source()` (`:63-83`, right to
left). -/
theorem C08_not_general :
    bothLineTexts [.newOriginal "a".toList 1 2, .newConcat, .add 1 (.ref 0), .add 1 (.str "b".toList),
      .newPrefix "> ".toList (.ref 1)] 2 = some ("> a> b", "> ab") ∧
    bothLineTexts [.newSms "a\n".toList 0 1 ⟨some ⟨[1], [2], [], "AAAA;".toList⟩, none⟩ none none,
      .newPrefix "> ".toList (.ref 0)] 1 = some ("> a\n> ", "> a\n") ∧
    bothLineTexts [.newConcat, .newPrefix "> ".toList (.ref 0)] 1 = some ("", "> ") ∧
    bothLineTexts [.newOriginal "a\nb".toList 1 2, .newReplace (.ref 0), .insert 1 2 "X".toList 0,
      .newPrefix "> ".toList (.ref 1)] 2 = some ("> a\n> X> b", "> a\n> Xb") ∧
    bothLineTexts [.newRaw "hello world".toList, .newReplace (.ref 0), .replace 1 0 8 "A".toList 0 0,
      .replace 1 3 5 "B".toList 0 0] 1 = some ("helBAld", "BAld") := by
  decide +kernel

/-! Non-trivial case: a prefixed source beside an edited concatenation with a `SourceMapSource`; edits
across item borders that overlap, an insertion behind the end. -/

/-- A bundle. -/
def C08_history : List Op :=
  [.newOriginal "a\nb\n".toList 1 2, .newPrefix "> ".toList (.ref 0),
   .newSms "x\n\ny\n".toList 3 4 ⟨some ⟨[5], [6], [], "AAAA;;AAEA".toList⟩, none⟩ none none,
   .newConcat, .add 3 (.ref 2), .add 3 (.str "tail".toList), .newReplace (.ref 3),
   .replace 4 3 6 "Q\n".toList 0 0, .replace 4 5 7 "P".toList 0 0, .insert 4 0 "[".toList 0, .insert 4 40 "]".toList 0,
   .newConcat, .add 5 (.ref 1), .add 5 (.ref 4),
   .newConcat, .add 6 (.ref 1), .add 6 (.str "-\n".toList), .add 6 (.ref 0), .newPrefix "\t".toList (.ref 6)]

example : bothLineTexts C08_history 5 = some ("> a\n> b\n[x\n\nQ\nPl]", "> a\n> b\n[x\n\nQ\nPl]") := by
  decide +kernel

example : bothLineTexts C08_history 7 =
    some ("\t> a\n\t> b\n\t-\n\ta\n\tb\n", "\t> a\n\t> b\n\t-\n\ta\n\tb\n") := by
  decide +kernel

example : EditsUnnested C08_history := by
  intro j c hc
  match j, hc with
  | 4, hc =>
    have : requests C08_history 4 = [⟨3, 0, 7, 0, "Q\n".toList⟩, ⟨5, 0, 8, 0, "P".toList⟩,
        ⟨0, 0, 0, 0, "[".toList⟩, ⟨40, 0, 40, 0, "]".toList⟩] := by
      decide
    rw [this]
    refine ⟨?_, ?_⟩
    · intro r hr
      simp only [List.mem_cons, List.not_mem_nil, or_false] at hr
      rcases hr with rfl | rfl | rfl | rfl <;> exact ⟨by decide, by decide, by decide, by decide, by decide⟩
    · simp [Unnested]
  | 0, hc => cases hc
  | 1, hc => cases hc
  | 2, hc => cases hc
  | 3, hc => cases hc
  | 5, hc => cases hc
  | 6, hc => cases hc
  | 7, hc => cases hc
  | j + 8, hc => cases hc

example : ∃ h, run C08_history = .ok h ∧ ∀ (j : Nat) (p : List Char) (c : Src),
    (created C08_history)[j]? = some (.newPrefix p c) → LineWise C08_history h true c := by
  refine ⟨_, rfl, ?_⟩
  intro j p c hc
  match j, hc with
  | 1, hc => cases hc; exact .original rfl
  | 7, hc =>
    cases hc
    refine .concat rfl ?_ ?_
    · intro c hc
      have : items C08_history 6 = [.ref 1, .str "-\n".toList, .ref 0] := by decide
      rw [this] at hc
      simp only [List.mem_cons, List.not_mem_nil, or_false] at hc
      rcases hc with rfl | rfl | rfl
      · exact .prefixed rfl (.original rfl)
      · exact .str _
      · exact .original rfl
    · intro ss hss
      have : items C08_history 6 = [.ref 1, .str "-\n".toList, .ref 0] := by decide
      rw [this] at hss
      match ss, hss with
      | [a, b, c], ⟨⟨h1, e1⟩, e2, ⟨h3, e3⟩, _⟩ =>
        have ha : a = "> a\n> b\n".toList :=
          (congrArg (fun x : M (Str × Heap) => (x.toOption.map Prod.fst).getD []) e1).symm
        have hc : c = "a\nb\n".toList :=
          (congrArg (fun x : M (Str × Heap) => (x.toOption.map Prod.fst).getD []) e3).symm
        have hb : b = "-\n".toList := e2.symm
        subst ha; subst hb; subst hc
        exact ⟨by decide, by decide, by decide, by decide, trivial⟩
  | 0, hc => cases hc
  | 2, hc => cases hc
  | 3, hc => cases hc
  | 4, hc => cases hc
  | 5, hc => cases hc
  | 6, hc => cases hc
  | j + 8, hc => cases hc

end WS
