import Verif.Proofs.NodeText
import Verif.Proofs.Api
/-! # C07 The text that accompanies the column-level map is `source()` -/

namespace WS
open Spec

/-- Object `k` is neither a `ReplaceSource` nor a `ConcatSource` with an empty string item. -/
def Spec.NoEmptyChunk (ops : List Op) (k : Nat) : Prop :=
  (∀ c, (created ops)[k]? ≠ some (.newReplace c)) ∧ .str [] ∉ items ops k

/-- Every `PrefixSource` wraps a text that is not empty, and if this text ends with a newline then no
`ReplaceSource` and no empty string item is involved in it. -/
def Spec.PrefixesFit (ops : List Op) (h : Heap) : Prop :=
  ∀ (j : Nat) (p : List Char) (c : Src) (s : List Char), (created ops)[j]? = some (.newPrefix p c) →
    ReadsAs h c s → s ≠ [] ∧ (s.getLast? = some '\n' → ∀ k, Contains h k c → NoEmptyChunk ops k)

theorem full_prefix (p : Str) : ∀ (L : List (Str × Option Origin)) (b : Bool), FullLeaves L →
    FullLeaves (prefixLeaves p L b)
  | [], _, _ => FullLeaves.nil
  | (s, o) :: rest, b, h => by
    rw [prefixLeaves]
    refine FullLeaves.append (A := [_]) ?_ (full_prefix p rest _ (fun l hl => h l (by simp [hl])))
    intro l hl
    simp only [List.mem_singleton] at hl
    subst hl
    have hs : s ≠ [] := h (s, o) (by simp)
    have hi : Spec.indentRest p s ≠ [] := by
      cases s with
      | nil => exact absurd rfl hs
      | cons c s => simp [Spec.indentRest]
    unfold makePrefixed
    rw [prefixLoop_eq]
    cases b <;> simp [hi]

theorem allM_mem {α β : Type _} {f : α → M β} : ∀ {l : List α} {r : List β}, allM f l = .ok r →
    ∀ b ∈ r, ∃ (k : Nat) (a : α), l[k]? = some a ∧ f a = .ok b
  | [], r, h, b, hb => by cases h; cases hb
  | a :: l, r, h, b, hb => by
    rw [allM] at h
    cases ha : f a with
    | error e => rw [ha] at h; cases h
    | ok x =>
      rw [ha] at h
      cases hl : allM f l with
      | error e => rw [hl] at h; cases h
      | ok y =>
        rw [hl] at h; cases h
        rcases List.mem_cons.1 hb with rfl | hb
        · exact ⟨0, a, rfl, ha⟩
        · obtain ⟨k, a', h1, h2⟩ := allM_mem hl b hb
          exact ⟨k + 1, a', by simpa using h1, h2⟩

/-- Without a `ReplaceSource` or an empty string item no leaf is empty. -/
theorem Seen.full {ops : List Op} {A : AHeap} {h : Heap} (hA : stepAll [] ops = .ok A) (H : Abs A h)
    (cols mod : Bool) {src : Src} {t : Tree} (hs : Seen A src t) :
    (∀ k, Contains h k src → NoEmptyChunk ops k) →
    ∀ n, t.node cols mod = .ok n → FullLeaves n.leaves ∧ n.IsNode := by
  have down : ∀ {i : Nat} {a : AObj} {c : Src}, A[i]? = some a →
      (∀ o, AbsObj a o → c ∈ o.children) → (∀ k, Contains h k (.ref i) → NoEmptyChunk ops k) →
      ∀ k, Contains h k c → NoEmptyChunk ops k := by
    intro i a c e hm hn k hc
    obtain ⟨o, ho, hao⟩ := H.getSome e
    exact hn k (.step ho (hm o hao) hc)
  induction hs with
  | str s => intro _ n hn; simp [Tree.node] at hn
  | raw e =>
    intro _ n hn
    cases hn
    refine ⟨?_, trivial⟩
    rw [rawNode_leaves]
    split
    · exact FullLeaves.nil
    · rename_i hv; intro l hl; simp at hl; subst hl; simpa using hv
  | original e =>
    intro _ n hn
    cases hn
    rw [originalNode_leaves]
    exact ⟨(linesLeaves_spec ..).2, trivial⟩
  | l2l e =>
    intro _ n hn
    cases hn
    rw [l2lNode_leaves]
    exact ⟨(linesLeaves_spec ..).2, trivial⟩
  | @sms i s₀ s e hr =>
    intro _ n hn
    rw [Tree.node] at hn
    cases hs : s.node with
    | error e => rw [hs] at hn; cases hn
    | ok q =>
      rw [hs] at hn; cases hn
      have := Sms.node_text (n := q.1) (s' := q.2) hs
      exact ⟨this.2.2, this.2.1⟩
  | @prefixed i p c t e _ ih =>
    intro hk n hn
    rw [Tree.node] at hn
    cases hm : t.node cols mod with
    | error e => rw [hm] at hn; cases hn
    | ok m =>
      rw [hm] at hn; cases hn
      have hi := ih (down e (by intro o ho; cases ho; simp [Obj.children]) hk) m hm
      rw [(prefixNode_leaves p hi.2).2]
      exact ⟨full_prefix p _ _ hi.1, trivial⟩
  | @replace i c cs t e _ ih =>
    intro hk n hn
    have D := stepAll_described hA i
    rw [e] at D
    cases hc : (created ops)[i]? with
    | none => rw [hc] at D; cases D
    | some op =>
      rw [hc] at D
      cases op <;> simp [objOf] at D
      exact absurd hc ((hk i .self).1 _)
  | @concat i cs ts e hl hseen ih =>
    intro hk n hn
    rw [Tree.node, Tree.nodes_eq] at hn
    cases hm : allM (Tree.itemNode cols mod) ts with
    | error e => rw [hm] at hn; cases hn
    | ok ns =>
      rw [hm] at hn; cases hn
      refine ⟨?_, trivial⟩
      rw [mkVec_leaves]
      intro l hl
      obtain ⟨x, hx, hlx⟩ := List.mem_flatMap.1 hl
      obtain ⟨k, t, htk, hit⟩ := allM_mem hm x hx
      have hlt : k < cs.length := by
        rw [← ‹ts.length = cs.length›]
        exact (List.getElem?_eq_some_iff.1 htk).1
      have hck : cs[k]? = some cs[k] := List.getElem?_eq_getElem hlt
      have hst := hseen k _ _ hck htk
      have hmem : cs[k] ∈ cs := List.getElem_mem hlt
      have D := stepAll_described hA i
      rw [e] at D
      have hitems : cs = items ops i := by
        cases hc : (created ops)[i]? with
        | none => rw [hc] at D; cases D
        | some op =>
          rw [hc] at D
          cases op <;> simp [objOf] at D
          exact D
      cases hst' : cs[k] with
      | str s =>
        rw [hst'] at hst hmem
        cases hst
        cases hit
        simp [SmNode.leaves] at hlx
        subst hlx
        intro hs
        apply (hk i .self).2
        rw [← hitems, ← show s = [] from hs]
        exact hmem
      | ref j =>
        have hn : t.node cols mod = .ok x := by
          rw [hst'] at hst
          cases hst <;> exact hit
        exact (ih k _ _ hck htk (down e (by intro o ho; cases ho; exact hmem) hk) x hn).1 l hlx

theorem Seen.prefixFit {ops : List Op} {A : AHeap} {h : Heap} (hA : stepAll [] ops = .ok A) (H : Abs A h)
    (hp : PrefixesFit ops h) (cols mod : Bool) {src : Src} {t : Tree} (hs : Seen A src t) :
    t.PrefixFit cols mod := by
  induction hs with
  | @prefixed i p c t e hst ih =>
    rw [Tree.PrefixFit]
    refine ⟨ih, ?_⟩
    intro n hn
    obtain ⟨_, ht⟩ := Tree.node_text cols mod t n ih hn
    obtain ⟨t', hu, ht'⟩ := hst.text
    have hc : (created ops)[i]? = some (.newPrefix p c) := by
      have D := stepAll_described hA i
      rw [e] at D
      cases hc : (created ops)[i]? with
      | none => rw [hc] at D; cases D
      | some op =>
        rw [hc] at D
        cases op <;> simp [objOf] at D
        rw [D.1, D.2]
    obtain ⟨h1, h2⟩ := hp i p c t.text hc ((readsAs_iff H _ _).2 ⟨t', hu, ht'⟩)
    constructor
    · intro hl
      apply h1
      rw [← ht, SmNode.text, hl]
      rfl
    · intro htr
      have hnl : t.text.getLast? = some '\n' := by
        have := htr.1
        rw [← ht]
        simpa [endsNl, leavesText, SmNode.text] using this
      exact (Seen.full hA H cols mod hst (h2 hnl) n hn).1.trailing htr
  | replace e _ ih => rw [Tree.PrefixFit]; exact ih
  | @concat i cs ts e hl _ ih =>
    rw [Tree.PrefixFit]
    clear e
    have : ∀ (cs : List Src) (ts : List Tree), ts.length = cs.length →
        (∀ (k : Nat) (c : Src) (t : Tree), cs[k]? = some c → ts[k]? = some t → t.PrefixFit cols mod) →
        Tree.PrefixFits cols mod ts := by
      intro cs ts
      induction ts generalizing cs with
      | nil => intro _ _; trivial
      | cons t ts ih2 =>
        intro hl ih
        cases cs with
        | nil => simp at hl
        | cons c cs =>
          exact ⟨ih 0 c t rfl rfl, ih2 cs (by simpa using hl) (fun k c t hc ht => ih (k + 1) c t hc ht)⟩
    exact this cs ts hl ih
  | _ => trivial

/-- C07, for histories whose `PrefixSource`s wrap fitting texts (`PrefixesFit`; in particular
histories without `PrefixSource`): whenever `sourceAndMap()` returns, its text is what `source()`
returns. Missing for the full claim: see `C07_not_general`. -/
theorem C07_text_partial (ops : List Op) (h : Heap) (i : Nat) (module_ : Bool) (file : Option Int)
    (r : StringWithSourceMap) (g : Heap) (hrun : run ops = .ok h) (hp : PrefixesFit ops h)
    (hr : apiSourceAndMap h i true module_ file = .ok (r, g)) :
    ReadsAs h (.ref i) r.source := by
  obtain ⟨A, hA, H⟩ := run_abs hrun
  rw [apiSourceAndMap, if_pos rfl] at hr
  split at hr
  · cases hr
  · rename_i n h1 hn
    split at hr
    · cases hr
    · rename_i hw
      cases hr
      obtain ⟨t, hs, ht⟩ := hNode_seen A true module_ _ _ _ _ _ _ H hn
      obtain ⟨_, htx⟩ := Tree.node_text true module_ t n (hs.prefixFit hA H hp true module_) ht
      obtain ⟨t', hu, ht'⟩ := hs.text
      rw [C09_text n file none _ hw, htx, ← ht']
      exact (readsAs_iff H _ _).2 ⟨t', hu, rfl⟩

/-- C07 without `PrefixSource`: no condition is left. -/
theorem C07_no_prefix (ops : List Op) (h : Heap) (i : Nat) (module_ : Bool) (file : Option Int)
    (r : StringWithSourceMap) (g : Heap) (hrun : run ops = .ok h)
    (hp : ∀ op ∈ ops, ∀ p c, op ≠ .newPrefix p c)
    (hr : apiSourceAndMap h i true module_ file = .ok (r, g)) :
    ReadsAs h (.ref i) r.source := by
  refine C07_text_partial ops h i module_ file r g hrun ?_ hr
  intro j p c s hc
  exact absurd rfl (hp _ (List.mem_filter.1 (List.mem_of_getElem? hc)).1 p c)

/-- `sourceAndMap().source` and `source()` of object `i` after a history. -/
def bothTexts (ops : List Op) (i : Nat) : Option (String × String) :=
  (run ops).toOption.bind fun h =>
    (apiSourceAndMap h i true true none).toOption.bind fun r =>
      (apiSource h i).toOption.map fun s => (String.ofList r.1.source, String.ofList s.1)

/-- C07 fails in general: a `PrefixSource` over an empty text loses the prefix on the node path
(`src/prefix_source.rs:26-50` visits no string), and one over a text whose last chunk is empty after
a newline gains one; `source()` (`src/prefix_source.rs:67-73`) does the opposite. -/
theorem C07_not_general :
    bothTexts [.newRaw [], .newPrefix "> ".toList (.ref 0)] 1 = some ("", "> ") ∧
    bothTexts [.newConcat, .add 0 (.str "a\n".toList), .add 0 (.str []), .newPrefix "> ".toList (.ref 0)] 1
      = some ("> a\n> ", "> a\n") := by
  decide +kernel

/-! Non-trivial case: prefixed text ending with a newline, beside an edited text. -/

/-- A bundle: a prefixed concatenation and an edited source, joined. -/
def C07_history : List Op :=
  [.newOriginal "a;b\n c\n".toList 1 2, .newConcat, .add 1 (.ref 0), .add 1 (.str "x\n".toList),
   .newPrefix "  ".toList (.ref 1), .newRaw "hello".toList, .newReplace (.ref 3),
   .replace 4 1 2 "E".toList 0 0, .newConcat, .add 5 (.ref 2), .add 5 (.ref 4)]

example : bothTexts C07_history 5 =
    some ("  a;b\n   c\n  x\nhElo", "  a;b\n   c\n  x\nhElo") := by decide +kernel

theorem contains_str {h : Heap} {k : Nat} {s : List Char} : ¬ Contains h k (.str s) := nofun

example : ∃ h, run C07_history = .ok h ∧ PrefixesFit C07_history h := by
  refine ⟨_, rfl, ?_⟩
  intro j p c s hc hs
  match j, hc with
  | 2, hc =>
    cases hc
    have hs' : s = "a;b\n c\nx\n".toList := by
      obtain ⟨h', e⟩ := hs
      exact (congrArg (fun x : M (Str × Heap) => (x.toOption.map Prod.fst).getD []) e).symm
    subst hs'
    refine ⟨by decide, fun _ k hk => ?_⟩
    have : k = 1 ∨ k = 0 := by
      cases hk with
      | self => exact .inl rfl
      | @step _ o c ho hm hk =>
        cases ho
        have hm : c = .ref 0 ∨ c = .str "x\n".toList := by
          simpa only [Obj.children, List.nil_append, List.cons_append, List.mem_cons,
            List.not_mem_nil, or_false] using hm
        rcases hm with rfl | rfl
        · cases hk with
          | self => exact .inr rfl
          | step ho hm _ => cases ho; cases hm
        · exact absurd hk contains_str
    rcases this with rfl | rfl
    · exact ⟨fun c hc => (by cases hc), by decide⟩
    · exact ⟨fun c hc => (by cases hc), by decide⟩
  | 0, hc => cases hc
  | 1, hc => cases hc
  | 3, hc => cases hc
  | 4, hc => cases hc
  | 5, hc => cases hc
  | j + 6, hc => cases hc

end WS
