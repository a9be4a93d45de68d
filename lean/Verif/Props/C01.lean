import Verif.Proofs.Frame
/-! # C01 Concatenation is exact and flattening is a snapshot -/

namespace WS
open Spec

/-- C01. After any history, `source()` of a `ConcatSource` succeeds with `s` exactly if `source()` of
each of its items succeeds and `s` is their texts joined in order. The items are determined by the
`add` calls alone (`Spec.items`): adding a `ConcatSource` contributes the items it held at that
moment. The items are read in the present state, so later edits of a shared item show. -/
theorem C01_concat_source (ops : List Op) (h : Heap) (i : Nat) (s : List Char)
    (hrun : run ops = .ok h) (hi : (created ops)[i]? = some .newConcat) :
    (∃ h', apiSource h i = .ok (s, h')) ↔ ∃ ss, ReadAll h (items ops i) ss ∧ s = ss.flatten := by
  obtain ⟨A, hA, H⟩ := run_abs hrun
  have D := stepAll_described hA i
  rw [hi] at D
  simp only [Option.bind_some, objOf] at D
  rw [api_source_iff H]
  constructor
  · rintro ⟨t, ht, rfl⟩
    cases ht with
    | concat e hl hk =>
      rw [D] at e; cases e
      exact ⟨_, (readAll_iff H _ _).2 ⟨_, hl, hk, rfl⟩, rfl⟩
    | raw e => rw [D] at e; cases e
    | original e => rw [D] at e; cases e
    | l2l e => rw [D] at e; cases e
    | sms e => rw [D] at e; cases e
    | prefixed e => rw [D] at e; cases e
    | replace e => rw [D] at e; cases e
  · rintro ⟨ss, hss, rfl⟩
    obtain ⟨ts, h1, h2, rfl⟩ := (readAll_iff H _ _).1 hss
    exact ⟨_, .concat D h1 h2, rfl⟩

theorem run_snoc {ops : List Op} {op : Op} {h₁ : Heap} (hadd : run (ops ++ [op]) = .ok h₁) :
    ∃ A A₁, stepAll [] ops = .ok A ∧ op.step A = .ok A₁ ∧ Abs A₁ h₁ := by
  obtain ⟨A₁, hA₁, H₁⟩ := run_abs hadd
  rw [stepAll_append] at hA₁
  cases hs : stepAll [] ops with
  | error e => rw [hs] at hA₁; cases hA₁
  | ok A =>
    rw [hs] at hA₁
    simp only [Except.bind, stepAll] at hA₁
    cases hB : op.step A with
    | error e => rw [hB] at hA₁; cases hA₁
    | ok C => rw [hB] at hA₁; cases hA₁; exact ⟨A, _, rfl, hB, H₁⟩

theorem aAdd_sameBut {A A₁ : AHeap} {i : Nat} {c : Src} (e : aAdd A i c = .ok A₁) :
    SameBut i A A₁ := by
  unfold aAdd at e
  split at e
  · split at e
    · cases e; exact SameBut.set ..
    · split at e
      · cases e
      · split at e
        · cases e
        · cases e; exact SameBut.set ..
      · cases e; exact SameBut.set ..
  · cases e

theorem readAll_append (h : Heap) (cs ds : List Src) (ss us : List (List Char))
    (h1 : ReadAll h cs ss) (h2 : ReadAll h ds us) : ReadAll h (cs ++ ds) (ss ++ us) := by
  induction cs generalizing ss with
  | nil => cases ss with
    | nil => exact h2
    | cons => exact h1.elim
  | cons c cs ih => cases ss with
    | nil => exact h1.elim
    | cons s ss => exact ⟨h1.1, ih ss h1.2⟩

theorem readAll_move (h h₁ : Heap) (cs : List Src) (ss : List (List Char))
    (hc : ∀ c ∈ cs, ∀ v, ReadsAs h c v → ReadsAs h₁ c v) (h1 : ReadAll h cs ss) :
    ReadAll h₁ cs ss := by
  induction cs generalizing ss with
  | nil => cases ss with
    | nil => trivial
    | cons => exact h1.elim
  | cons c cs ih => cases ss with
    | nil => exact h1.elim
    | cons s ss => exact ⟨hc c (by simp) s h1.1, ih ss (fun c hc' => hc c (by simp [hc'])) h1.2⟩

/-- C01: an `add` does not change what objects that do not contain the receiver read as. In
particular adding to a `ConcatSource` later does not change an object it was added to. -/
theorem C01_add_frame (ops : List Op) (h h₁ : Heap) (i : Nat) (item src : Src) (s : List Char)
    (hrun : run ops = .ok h) (hadd : run (ops ++ [.add i item]) = .ok h₁)
    (hc : ¬ Contains h i src) (hs : ReadsAs h src s) : ReadsAs h₁ src s := by
  obtain ⟨A, A₁, hA, hstep, H₁⟩ := run_snoc hadd
  obtain ⟨A', hA', H⟩ := run_abs hrun
  rw [hA] at hA'; cases hA'
  obtain ⟨t, ht, rfl⟩ := (readsAs_iff H _ _).1 hs
  exact (readsAs_iff H₁ _ _).2 ⟨t, ht.frame H (aAdd_sameBut hstep) hc, rfl⟩

/-- C01: `add` appends the text the item has at that moment. The item must not contain the receiver
(otherwise the receiver would contain itself). -/
theorem C01_add_appends (ops : List Op) (h h₁ : Heap) (i : Nat) (item : Src) (s u : List Char)
    (hrun : run ops = .ok h) (hadd : run (ops ++ [.add i item]) = .ok h₁)
    (hi : (created ops)[i]? = some .newConcat) (hc : ¬ Contains h i item)
    (hs : ReadsAs h (.ref i) s) (hu : ReadsAs h item u) : ReadsAs h₁ (.ref i) (s ++ u) := by
  have frame := fun src v => C01_add_frame ops h h₁ i item src v hrun hadd
  obtain ⟨A, hA, H⟩ := run_abs hrun
  have D := stepAll_described hA
  have Di := D i
  rw [hi] at Di
  simp only [Option.bind_some, objOf] at Di
  obtain ⟨t, ht, -⟩ := (readsAs_iff H _ _).1 hs
  have nc := not_contains_child H ht Di
  obtain ⟨ss, h1, rfl⟩ := (C01_concat_source ops h i s hrun hi).1 hs
  have hi' : (created (ops ++ [.add i item]))[i]? = some .newConcat := by
    rw [created_snoc]; simpa [isNew] using hi
  apply (C01_concat_source _ h₁ i _ hadd hi').2
  rw [items_snoc_add, if_pos rfl]
  have h1' := readAll_move h h₁ _ _ (fun c hc v => frame c v (nc c hc)) h1
  cases item with
  | str x =>
    simp only [ReadsAs] at hu
    subst hu
    exact ⟨ss ++ [x], readAll_append _ _ _ _ _ h1' ⟨rfl, trivial⟩, by simp⟩
  | ref j =>
    simp only
    split
    · rename_i hj
      obtain ⟨us, h2, rfl⟩ := (C01_concat_source ops h j u hrun hj).1 hu
      refine ⟨ss ++ us, readAll_append _ _ _ _ _ h1' (readAll_move h h₁ _ _ ?_ h2), by simp⟩
      have Dj := D j
      rw [hj] at Dj
      simp only [Option.bind_some, objOf] at Dj
      exact fun c hc' v => frame c v (fun hi => hc (contains_of_child H Dj hc' hi))
    · exact ⟨ss ++ [u], readAll_append _ _ _ _ _ h1' ⟨frame _ _ hc hu, trivial⟩, by simp⟩

/-! Non-trivial case: object 3 holds a shared `ReplaceSource` and, by flattening, the items object 2
held when it was added; "late" is added to object 2 afterwards and the shared item is edited
afterwards. -/

/-- A history with sharing, flattening and a later edit. -/
def C01_history : List Op :=
  [.newRaw "abc".toList, .newReplace (.ref 0), .newConcat, .newConcat,
   .add 2 (.str "x".toList), .add 2 (.ref 1), .add 3 (.ref 0), .add 3 (.ref 2), .source 3,
   .add 2 (.str "late".toList), .replace 1 1 1 "Q".toList 0 0]

example : (match run C01_history with
    | .ok h => (apiSource h 3).toOption.map Prod.fst | .error _ => none)
      = some "abcxaQc".toList := by decide +kernel
example : items C01_history 3 = [.ref 0, .str "x".toList, .ref 1] := by decide +kernel
example : (created C01_history)[3]? = some .newConcat := by decide +kernel

end WS
