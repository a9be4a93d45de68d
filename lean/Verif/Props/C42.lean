import Verif.Model.Sources
import Verif.Proofs.Render
/-! # C42 List-map node counters are consistent -/

namespace WS
open Spec

/-- The code of a child. -/
def LNode.codeOf : LNode → Str
  | .code s | .str s => s
  | .source n => n.code
  | .single n => n.code
  | _ => []

/-- Every way nodes come about; code added or merged satisfies `P`. -/
inductive LNode.Built (P : Str → Prop) : LNode → Prop
  | code (s : Str) : Built P (.code s)
  | source (code : Str) (src orig : Option Int) (line : Nat) : Built P (.source (LSource.new code src orig line))
  | single (code : Str) (src orig : Option Int) (line : Nat) : Built P (.single (LSingle.new code src orig line))
  | add {n : LSource} {code : Str} (h : Built P (.source n)) (hp : P code) : Built P (.source (n.addCode code))
  | merge {a b c : LNode} (ha : Built P a) (hb : Built P b) (hp : P b.codeOf) (h : a.merge b = some c) : Built P c
  | mapped {σ : Type} {f : σ → Str → Str × σ} {s s' : σ} {a b : LNode} (ha : Built P a)
      (h : a.mapCode f s = (some b, s')) : Built P b
  | line {a b : LNode} (ha : Built P a) (h : b ∈ a.normalized) : Built P b

/-- The counters of a node are as said. -/
def LNode.Counters (R : Str → Nat → Bool → Prop) : LNode → Prop
  | .source n => R n.code n.numLines n.endsNl
  | .single n => R n.code n.numLines n.endsNl
  | _ => True

theorem normLines_mem {src orig : Option Int} {e : Bool} : ∀ {ls : List Str} {cur : Nat} {b : LNode},
    b ∈ normLines src orig e cur ls → ∃ l k, b = .single (LSingle.new l src orig k) ∧ cur ≤ k
  | [], _, _, h => by simp [normLines] at h
  | [l], cur, b, h => by
    rw [normLines] at h
    split at h
    · cases h
    · exact ⟨l, cur, List.mem_singleton.1 h, Nat.le_refl _⟩
  | l :: l' :: ls, cur, b, h => by
    rw [normLines] at h
    · rcases List.mem_cons.1 h with h | h
      · exact ⟨l, cur, h, Nat.le_refl _⟩
      · obtain ⟨x, k, h1, h2⟩ := normLines_mem h
        exact ⟨x, k, h1, by omega⟩
    · simp

/-- A way to keep a relation on counters through all constructions. -/
theorem built_counters {P : Str → Prop} {R : Str → Nat → Bool → Prop}
    (hnew : ∀ c, R c (numberOfLines c) (endsNl c))
    (hadd : ∀ a n e c, R a n e → P c → R (a ++ c) (n + numberOfLines c) (endsNl c))
    (hmerge : ∀ a n e b n' e', R a n e → R b n' e' → P b → R (a ++ b) (n + n') e')
    {n : LNode} (h : n.Built P) : n.Counters R := by
  induction h with
  | code s => trivial
  | source c _ _ _ => exact hnew c
  | single c _ _ _ => exact hnew c
  | add h hp ih => exact hadd _ _ _ _ ih hp
  | @merge a b c ha hb hp h iha ihb =>
    unfold LNode.merge at h
    split at h
    · cases h; trivial
    · rename_i n o
      unfold LSource.mergeSource at h
      split at h
      · cases h
        exact hmerge _ _ _ _ _ _ iha ihb hp
      · cases h
    · rename_i n o
      unfold LSource.mergeSingle at h
      split at h
      · cases h
        exact hmerge _ _ _ _ _ _ iha ihb hp
      · cases h
    · rename_i n o
      unfold LSingle.mergeSingle at h
      split at h
      · split at h
        · cases h
          exact hmerge _ _ _ _ _ _ iha ihb hp
        · split at h
          · cases h
            exact hnew _
          · cases h
      · cases h
    · cases h
  | @mapped σ f s s' a b ha h ih =>
    cases a with
    | code c => simp only [LNode.mapCode, Prod.mk.injEq, Option.some.injEq] at h; rw [← h.1]; trivial
    | single n =>
      simp only [LNode.mapCode, Prod.mk.injEq, Option.some.injEq] at h
      rw [← h.1]
      exact hnew _
    | _ => simp [LNode.mapCode] at h
  | @line a b ha h ih =>
    cases a with
    | code c => rw [List.mem_singleton.1 h]; trivial
    | single n => rw [List.mem_singleton.1 h]; exact ih
    | source n =>
      obtain ⟨l, k, rfl, _⟩ := normLines_mem h
      exact hnew l
    | _ => simp [LNode.normalized] at h

/-- C42, first half: the line count is always the number of newlines of the code. -/
theorem C42_lines {n : LNode} (h : n.Built fun _ => True) :
    n.Counters fun code num _ => num = code.count '\n' :=
  built_counters (fun _ => rfl)
    (fun _ _ _ _ h _ => by subst h; exact (numberOfLines_append _ _).symm)
    (fun _ _ _ _ _ _ h h' _ => by subst h; subst h'; exact (numberOfLines_append _ _).symm) h

/-- C42, second half, as far as it always holds: a node that claims to end with a newline does. Missing:
the converse, see `C42_ends_nonempty` and `C42_not_general`. -/
theorem C42_ends_partial {n : LNode} (h : n.Built fun _ => True) :
    n.Counters fun code _ e => e = true → code.getLast? = some '\n' := by
  refine built_counters (fun c h => by simpa [endsNl] using h) (fun a _ _ c _ _ h => ?_)
    (fun a _ _ b _ _ _ h' _ he => ?_) h
  · have : c.getLast? = some '\n' := by simpa [endsNl] using h
    rw [List.getLast?_append, this]; rfl
  · rw [List.getLast?_append, h' he]; rfl

/-- C42, second half, when no empty code is added or merged: the flag says exactly whether the code ends
with a newline. -/
theorem C42_ends_nonempty {n : LNode} (h : n.Built fun c => c ≠ []) :
    n.Counters fun code _ e => e = true ↔ code.getLast? = some '\n' := by
  have hl : ∀ (a : Str) {c : Str}, c ≠ [] → (a ++ c).getLast? = c.getLast? := by
    intro a c hc
    rw [List.getLast?_append, List.getLast?_eq_some_getLast hc]; rfl
  refine built_counters (fun c => by simp [endsNl]) (fun a _ _ c _ hc => ?_)
    (fun a _ _ b _ _ _ h' hc => ?_) h
  · rw [hl a hc]; simp [endsNl]
  · rw [hl a hc]; exact h'

/-- The converse fails: adding empty code clears the flag (`src/source_list_map/source_node.rs:37`), and
the reader does add the empty last line of a text to the node before it
(`src/source_list_map/from_string_with_source_map.rs:108-128`). -/
theorem C42_not_general :
    (slmFromString "a\n".toList [5] [] "AAAA;".toList).toOption.map (·.map fun
      | .source n => (n.code, n.endsNl) | _ => ([], true)) = some [("a\n".toList, false)] := by
  decide +kernel

/-! ## The nodes of list maps come about in these ways -/

/-- All children do. -/
def AllBuilt (m : Slm) : Prop := ∀ n ∈ m, n.Built fun _ => True

theorem slmAddStr_built {m : Slm} (h : AllBuilt m) (s : Str) (src orig : Option Int) :
    AllBuilt (slmAddStr m s src orig) := by
  unfold slmAddStr
  split
  · intro n hn
    rcases List.mem_append.1 hn with hn | hn
    · exact h n hn
    · rw [List.mem_singleton.1 hn]; exact .source ..
  · split
    · intro n hn
      rcases List.mem_append.1 hn with hn | hn
      · exact h n ((List.dropLast_sublist m).mem hn)
      · rw [List.mem_singleton.1 hn]; exact .code _
    · intro n hn
      rcases List.mem_append.1 hn with hn | hn
      · exact h n hn
      · rw [List.mem_singleton.1 hn]; exact .code _

theorem pushMerge_built {rev : List LNode} (h : AllBuilt rev) {o : Option LNode}
    (ho : ∀ n, o = some n → n.Built fun _ => True) : AllBuilt (pushMerge rev o) := by
  unfold pushMerge
  split
  · exact h
  · rename_i n
    split
    · intro k hk; rw [List.mem_singleton.1 hk]; exact ho n rfl
    · rename_i last rest
      split
      · rename_i m hm
        intro k hk
        rcases List.mem_cons.1 hk with rfl | hk
        · exact .merge (h last (by simp)) (ho n rfl) trivial hm
        · exact h k (by simp [hk])
      · intro k hk
        rcases List.mem_cons.1 hk with rfl | hk
        · exact ho k rfl
        · exact h k hk

theorem mapLoop_built {σ : Type} (f : σ → Str → Str × σ) : ∀ (ns : List LNode) (st : σ) (rev : List LNode),
    AllBuilt rev → AllBuilt ns → AllBuilt (mapLoop f st rev ns).1
  | [], _, _, h, _ => h
  | n :: ns, st, rev, h, hn => by
    rw [mapLoop]
    refine mapLoop_built f ns _ _ (pushMerge_built h fun k hk => ?_) (fun k hk => hn k (by simp [hk]))
    exact .mapped (hn n (by simp)) (Prod.ext hk rfl)

theorem slmMapGenerated_built {σ : Type} (f : σ → Str → Str × σ) (st : σ) {m : Slm} (h : AllBuilt m) :
    AllBuilt (slmMapGenerated f st m).1 := by
  unfold slmMapGenerated
  dsimp only
  intro n hn
  rw [List.mem_reverse] at hn
  refine mapLoop_built f _ st [] (by intro k hk; cases hk) ?_ n hn
  intro k hk
  simp only [List.mem_flatten, List.mem_map] at hk
  obtain ⟨_, ⟨a, ha, rfl⟩, hka⟩ := hk
  exact .line (h a ha) hka

theorem lfAddCode_built {st : LfState} (h : AllBuilt st.rev) (code : Str) : AllBuilt (lfAddCode st code).rev := by
  have push : AllBuilt (.code code :: st.rev) := by
    intro k hk
    rcases List.mem_cons.1 hk with rfl | hk
    · exact .code _
    · exact h k hk
  unfold lfAddCode
  split
  · rename_i s rest e
    intro k hk
    rcases List.mem_cons.1 hk with rfl | hk
    · exact .code _
    · exact h k (by rw [e]; simp [hk])
  · rename_i n rest e
    split
    · intro k hk
      rcases List.mem_cons.1 hk with rfl | hk
      · exact .add (h (.source n) (by rw [e]; simp)) trivial
      · exact h k (by rw [e]; simp [hk])
    · exact push
  · exact push

theorem lfAddSource_built {st : LfState} (h : AllBuilt st.rev) (code : Str) (s o : Option Int) (l : Nat) :
    AllBuilt (lfAddSource st code s o l).rev := by
  have push : AllBuilt (.source (LSource.new code s o l) :: st.rev) := by
    intro k hk
    rcases List.mem_cons.1 hk with rfl | hk
    · exact .source ..
    · exact h k hk
  unfold lfAddSource
  split
  · rename_i n rest e
    split
    · intro k hk
      rcases List.mem_cons.1 hk with rfl | hk
      · exact .add (h (.source n) (by rw [e]; simp)) trivial
      · exact h k (by rw [e]; simp [hk])
    · exact push
  · exact push

/-- What one iteration over the segments does to the nodes: nothing, or `add_source`. -/
theorem lfSegment_rev {sources contents : List Int} {line : Str} {added : Bool} {st : LfState} {rest : Str}
    {r : Str} {a : Bool} {st' : LfState}
    (h : lfSegment sources contents line added st rest = .ok (r, a, st')) :
    (a = added ∧ st'.rev = st.rev ∧ st'.nodeLine = st.nodeLine) ∨
    (added = false ∧ a = true ∧ ∃ st0 : LfState, st0.rev = st.rev ∧ st0.nodeLine = st.nodeLine ∧
      st0.curLine = st'.curLine ∧ st0.curSource = st'.curSource ∧
      st' = lfAddSource st0 line sources[st0.curSource]? contents[st0.curSource]? (toUsize st0.curLine)) := by
  unfold lfSegment at h
  split at h
  · cases h
  · cases h; exact .inl ⟨rfl, rfl, rfl⟩
  · split at h
    · cases h; exact .inl ⟨rfl, rfl, rfl⟩
    · split at h
      · cases h
      · dsimp only at h
        split at h
        · cases h
        · rename_i v rest' _ _ lp rest'' _
          split at h
          · cases h; exact .inl ⟨rfl, rfl, rfl⟩
          · rename_i hadd
            simp only [Except.ok.injEq, Prod.mk.injEq] at h
            obtain ⟨_, h2, h3⟩ := h
            refine .inr ⟨by simpa using hadd, h2.symm,
              ⟨st.rev, lp, toUsize (v + st.curSource), st.nodeLine⟩, rfl, rfl, ?_, ?_, h3.symm⟩
            · rw [← h3]; unfold lfAddSource; dsimp only; split <;> (try split) <;> rfl
            · rw [← h3]; unfold lfAddSource; dsimp only; split <;> (try split) <;> rfl

theorem lfSegments_built {sources contents : List Int} {line : Str} : ∀ (fuel : Nat) (added : Bool)
    (st : LfState) (s : Str) {a : Bool} {st' : LfState}, AllBuilt st.rev →
    lfSegments sources contents line fuel added st s = .ok (a, st') → AllBuilt st'.rev
  | fuel, added, st, [], a, st', hb, h => by
    have : lfSegments sources contents line fuel added st [] = .ok (added, st) := by
      cases fuel <;> rfl
    rw [this] at h; cases h; exact hb
  | 0, added, st, c :: cs, a, st', hb, h => by cases h
  | fuel + 1, added, st, c :: cs, a, st', hb, h => by
    rw [lfSegments] at h
    split at h
    · cases h
    · rename_i r a1 st1 e
      refine lfSegments_built fuel _ _ _ ?_ h
      rcases lfSegment_rev e with ⟨_, h2, _⟩ | ⟨_, _, st0, h1, _, _, _, h2⟩
      · rw [h2]; exact hb
      · rw [h2]; exact lfAddSource_built (by rw [h1]; exact hb) _ _ _ _

theorem lfLine_built {sources contents : List Int} {st st' : LfState} {line mp : Str} (hb : AllBuilt st.rev)
    (h : lfLine sources contents st line mp = .ok st') : AllBuilt st'.rev := by
  unfold lfLine at h
  split at h
  · cases h; exact lfAddCode_built hb _
  · split at h
    · cases h
    · rename_i a st1 e
      have := lfSegments_built _ _ _ _ hb e
      cases h
      split
      · exact this
      · exact lfAddCode_built this _

theorem lfLines_built {sources contents : List Int} : ∀ (ms : List Str) (st : LfState) (ls : List Str)
    {st' : LfState} {rest : List Str}, AllBuilt st.rev →
    lfLines sources contents st ls ms = .ok (st', rest) → AllBuilt st'.rev
  | [], st, ls, st', rest, hb, h => by
    have : lfLines sources contents st ls [] = .ok (st, ls) := by cases ls <;> rfl
    rw [this] at h; cases h; exact hb
  | m :: ms, st, [], st', rest, hb, h => by
    rw [lfLines] at h
    exact lfLines_built ms st [] hb h
  | m :: ms, st, l :: ls, st', rest, hb, h => by
    rw [lfLines] at h
    split at h
    · cases h
    · rename_i st1 e
      exact lfLines_built ms st1 ls (lfLine_built hb e) h

theorem lfRest_built : ∀ (ls : List Str) (st : LfState), AllBuilt st.rev → AllBuilt (lfRest st ls).rev
  | [], _, h => h
  | l :: ls, st, h => by
    rw [lfRest]
    split
    · exact lfRest_built ls _ (lfAddCode_built h _)
    · exact lfAddCode_built h _

/-- Reading builds nodes in these ways. -/
theorem slmFromString_built {code : Str} {sources contents : List Int} {mappings : Str} {m : Slm}
    (h : slmFromString code sources contents mappings = .ok m) : AllBuilt m := by
  unfold slmFromString at h
  split at h
  · cases h
  · rename_i st rest e
    cases h
    intro n hn
    rw [List.mem_reverse] at hn
    exact lfRest_built rest st (lfLines_built _ _ _ (by intro k hk; cases hk) e) n hn

/-! Non-trivial case. -/

example : LNode.Built (fun c => c ≠ [])
    (.source ((LSource.new "a\n".toList (some 1) none 1).addCode "b\nc".toList)) :=
  .add (.source ..) (by decide)

end WS
