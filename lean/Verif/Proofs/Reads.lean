import Verif.Proofs.Describe
/-! # When `source()` succeeds -/

namespace WS
open Spec

/-- What an object refers to. -/
def AObj.children : AObj → List Src
  | .prefixed _ c => [c]
  | .replace c _ => [c]
  | .concat cs => cs
  | _ => []

/-- Every reference is to an existing object. -/
def AHeap.Valid (A : AHeap) : Prop :=
  ∀ (i : Nat) (a : AObj), A[i]? = some a → ∀ c ∈ a.children, c.validA A = true

theorem Src.validA_mono {A B : AHeap} (h : A.length ≤ B.length) {c : Src} (hc : c.validA A = true) :
    c.validA B = true := by
  cases c with
  | str s => rfl
  | ref j => simp [Src.validA] at hc ⊢; omega

theorem AHeap.Valid.push {A : AHeap} (V : A.Valid) {a : AObj}
    (ha : ∀ c ∈ a.children, c.validA A = true) : AHeap.Valid (A ++ [a]) := by
  intro i b hb c hc
  apply Src.validA_mono (A := A) (by simp)
  rw [getElem?_snoc] at hb
  split at hb
  · cases hb; exact ha c hc
  · exact V i b hb c hc

theorem AHeap.Valid.set {A : AHeap} (V : A.Valid) {a : AObj} {k : Nat}
    (ha : ∀ c ∈ a.children, c.validA A = true) : AHeap.Valid (A.set k a) := by
  intro i b hb c hc
  apply Src.validA_mono (A := A) (by simp)
  rw [List.getElem?_set] at hb
  split at hb
  · split at hb
    · cases hb; exact ha c hc
    · cases hb
  · exact V i b hb c hc

theorem aCall_valid {A A' : AHeap} (V : A.Valid) {i : Nat} {c : Call} (e : aCall A i c = .ok A') :
    A'.Valid := by
  unfold aCall at e
  split at e
  · rename_i hA
    cases e
    exact V.set (fun c hc => V i _ hA c hc)
  · cases e

theorem aAdd_valid {A A' : AHeap} (V : A.Valid) {i : Nat} {c : Src} (e : aAdd A i c = .ok A') :
    A'.Valid := by
  unfold aAdd at e
  split at e
  · rename_i cs hA
    have h0 := V i _ hA
    split at e
    · cases e
      apply V.set
      intro c hc
      rcases List.mem_append.1 hc with hc | hc
      · exact h0 c hc
      · simp at hc; subst hc; rfl
    · rename_i j
      split at e
      · cases e
      · rename_i ds hB
        split at e
        · cases e
        · cases e
          apply V.set
          intro c hc
          rcases List.mem_append.1 hc with hc | hc
          · exact h0 c hc
          · exact V j _ hB c hc
      · rename_i hB
        cases e
        apply V.set
        intro c hc
        rcases List.mem_append.1 hc with hc | hc
        · exact h0 c hc
        · simp at hc; subst hc
          simpa [Src.validA] using (List.getElem?_eq_some_iff.1 hB).1
  · cases e

theorem step_valid {A A' : AHeap} (V : A.Valid) (op : Op) (e : op.step A = .ok A') : A'.Valid := by
  cases op with
  | newPrefix p c =>
    simp only [Op.step] at e
    split at e
    · rename_i hc; cases e; exact V.push (by simpa [AObj.children] using hc)
    · cases e
  | newReplace c =>
    simp only [Op.step] at e
    split at e
    · rename_i hc; cases e; exact V.push (by simpa [AObj.children] using hc)
    · cases e
  | add i item => exact aAdd_valid V e
  | replace i s e' t o o' => exact aCall_valid V e
  | insert i p t o => exact aCall_valid V e
  | source i => cases e; exact V
  | size i => cases e; exact V
  | node i c m => cases e; exact V
  | listMap i c m => cases e; exact V
  | _ => cases e; exact V.push (by simp [AObj.children])

theorem stepAll_valid {A A' : AHeap} (V : A.Valid) (ops : List Op) (e : stepAll A ops = .ok A') :
    A'.Valid := by
  induction ops generalizing A with
  | nil => cases e; exact V
  | cons op ops ih =>
    simp only [stepAll] at e
    cases hs : op.step A with
    | error x => rw [hs] at e; cases e
    | ok B => rw [hs] at e; exact ih (step_valid V op hs) e

theorem eachA_ok_inv {α : Type _} {f : Src → M α} {cs : List Src} {as : List α}
    (h : eachA f cs = .ok as) : as.length = cs.length ∧
      ∀ (k : Nat) (c : Src) (a : α), cs[k]? = some c → as[k]? = some a → f c = .ok a := by
  induction cs generalizing as with
  | nil => cases h; simp
  | cons c cs ih =>
    simp only [eachA] at h
    cases hc : f c with
    | error e => rw [hc] at h; cases h
    | ok a =>
      rw [hc] at h
      simp only [Except.bind] at h
      cases hr : eachA f cs with
      | error e => rw [hr] at h; cases h
      | ok as' =>
        rw [hr] at h
        cases h
        obtain ⟨h1, h2⟩ := ih hr
        refine ⟨by simp [h1], ?_⟩
        intro k c' a' hk ha
        cases k with
        | zero => simp at hk ha; subst hk; subst ha; exact hc
        | succ k => exact h2 k c' a' (by simpa using hk) (by simpa using ha)

/-- Choosing a tree for every item. -/
theorem choose_trees {P : Src → Tree → Prop} (cs : List Src) (h : ∀ c ∈ cs, ∃ t, P c t) :
    ∃ ts : List Tree, ts.length = cs.length ∧
      ∀ (k : Nat) (c : Src) (t : Tree), cs[k]? = some c → ts[k]? = some t → P c t := by
  induction cs with
  | nil => exact ⟨[], rfl, by simp⟩
  | cons c cs ih =>
    obtain ⟨t, ht⟩ := h c (by simp)
    obtain ⟨ts, h1, h2⟩ := ih (fun c hc => h c (by simp [hc]))
    refine ⟨t :: ts, by simp [h1], ?_⟩
    intro k c' t' hc' ht'
    cases k with
    | zero => simp at hc' ht'; subst hc'; subst ht'; exact ht
    | succ k => exact h2 k c' t' (by simpa using hc') (by simpa using ht')

/-- A successful read comes from a finite unfolding. -/
theorem unfolds_of_source {A : AHeap} (fuel : Nat) : ∀ (busy : List Nat) (src : Src) (s : Str),
    aSource fuel A busy src = .ok s → ∃ t, Unfolds A src t := by
  induction fuel with
  | zero => intro busy src s h; cases h
  | succ fuel ih =>
    intro busy src s h
    cases src with
    | str s => exact ⟨_, .str s⟩
    | ref i =>
      simp only [aSource] at h
      split at h
      · cases h
      · split at h
        · cases h
        · exact ⟨_, .raw (by assumption)⟩
        · exact ⟨_, .original (by assumption)⟩
        · exact ⟨_, .l2l (by assumption)⟩
        · exact ⟨_, .sms (by assumption)⟩
        · rename_i p c hA
          cases hc : aSource fuel A (i :: busy) c with
          | error e => rw [hc] at h; cases h
          | ok s => obtain ⟨t, ht⟩ := ih _ _ _ hc; exact ⟨_, .prefixed hA ht⟩
        · rename_i c cs hA
          cases hc : aSource fuel A (i :: busy) c with
          | error e => rw [hc] at h; cases h
          | ok s => obtain ⟨t, ht⟩ := ih _ _ _ hc; exact ⟨_, .replace hA ht⟩
        · rename_i cs hA
          cases hc : eachA (aSource fuel A (i :: busy)) cs with
          | error e => rw [hc] at h; cases h
          | ok ss =>
            obtain ⟨h1, h2⟩ := eachA_ok_inv hc
            obtain ⟨ts, h3, h4⟩ := choose_trees (P := Unfolds A) cs (by
              intro c hc
              obtain ⟨k, hk⟩ := List.mem_iff_getElem?.1 hc
              have hk' := (List.getElem?_eq_some_iff.1 hk).1
              exact ih _ _ _ (h2 k c ss[k] hk (List.getElem?_eq_getElem (by omega))))
            exact ⟨_, .concat hA h3 h4⟩

/-- `source()` succeeds exactly on what unfolds to a tree, and returns its text. -/
theorem api_source_iff {A : AHeap} {h : Heap} (H : Abs A h) (i : Nat) (s : Str) :
    (∃ h', apiSource h i = .ok (s, h')) ↔ ∃ t, Unfolds A (.ref i) t ∧ t.text = s := by
  constructor
  · rintro ⟨h', e⟩
    obtain ⟨h1, H1, e1⟩ := hSource_computes A (budget h) h [] (.ref i) H
    rw [apiSource, e1] at e
    cases hs : aSource (budget h) A [] (.ref i) with
    | error x => rw [hs] at e; cases e
    | ok x =>
      obtain ⟨t, ht⟩ := unfolds_of_source _ _ _ _ hs
      rw [budget, ← H.1, ht.source _ _ (Going.start A _)] at hs
      rw [budget, ← H.1, ht.source _ _ (Going.start A _)] at e
      cases e
      exact ⟨t, ht, rfl⟩
  · rintro ⟨t, ht, rfl⟩
    obtain ⟨h', _, e⟩ := api_source H ht
    exact ⟨h', e⟩

theorem readsAs_iff {A : AHeap} {h : Heap} (H : Abs A h) (src : Src) (s : Str) :
    ReadsAs h src s ↔ ∃ t, Unfolds A src t ∧ t.text = s := by
  cases src with
  | str x =>
    simp only [ReadsAs]
    constructor
    · rintro rfl; exact ⟨_, .str _, rfl⟩
    · rintro ⟨t, ht, rfl⟩; cases ht; rfl
  | ref j => exact api_source_iff H j s

theorem readAll_iff {A : AHeap} {h : Heap} (H : Abs A h) (cs : List Src) (ss : List Str) :
    ReadAll h cs ss ↔ ∃ ts : List Tree, ts.length = cs.length ∧
      (∀ (k : Nat) (c : Src) (t : Tree), cs[k]? = some c → ts[k]? = some t → Unfolds A c t) ∧
      Tree.texts ts = ss := by
  induction cs generalizing ss with
  | nil =>
    cases ss with
    | nil => exact ⟨fun _ => ⟨[], rfl, by simp, rfl⟩, fun _ => trivial⟩
    | cons s ss =>
      refine ⟨fun h => h.elim, ?_⟩
      rintro ⟨ts, h1, -, h3⟩
      cases ts with
      | nil => cases h3
      | cons t ts => simp at h1
  | cons c cs ih =>
    cases ss with
    | nil =>
      refine ⟨fun h => h.elim, ?_⟩
      rintro ⟨ts, h1, -, h3⟩
      cases ts with
      | nil => simp at h1
      | cons t ts => cases h3
    | cons s ss =>
      simp only [ReadAll, readsAs_iff H, ih]
      constructor
      · rintro ⟨⟨t, ht, rfl⟩, ts, h1, h2, rfl⟩
        refine ⟨t :: ts, by simp [h1], ?_, rfl⟩
        intro k c' t' hc' ht'
        cases k with
        | zero => simp at hc' ht'; subst hc'; subst ht'; exact ht
        | succ k => exact h2 k c' t' (by simpa using hc') (by simpa using ht')
      · rintro ⟨ts, h1, h2, h3⟩
        cases ts with
        | nil => simp at h1
        | cons t ts =>
          simp only [Tree.texts] at h3
          injection h3 with h3 h4
          exact ⟨⟨t, h2 0 c t rfl rfl, h3⟩, ts, by simpa using h1,
            fun k c t hc ht => h2 (k + 1) c t hc ht, h4⟩

/-- One reads from the other. -/
def Child (A : AHeap) (j i : Nat) : Prop := ∃ a, A[i]? = some a ∧ .ref j ∈ a.children

theorem unfolds_of_acc {A : AHeap} (V : A.Valid) {i : Nat} (h : Acc (Child A) i) :
    i < A.length → ∃ t, Unfolds A (.ref i) t := by
  induction h with
  | intro i _ ih =>
    intro hi
    obtain ⟨a, ha⟩ : ∃ a, A[i]? = some a := ⟨A[i], List.getElem?_eq_getElem hi⟩
    have go : ∀ c ∈ a.children, ∃ t, Unfolds A c t := by
      intro c hc
      cases c with
      | str s => exact ⟨_, .str s⟩
      | ref j =>
        have := V i a ha _ hc
        exact ih j ⟨a, ha, hc⟩ (by simpa [Src.validA] using this)
    cases a with
    | raw v => exact ⟨_, .raw ha⟩
    | original v n k => exact ⟨_, .original ha⟩
    | l2l v n k => exact ⟨_, .l2l ha⟩
    | sms s => exact ⟨_, .sms ha⟩
    | prefixed p c => obtain ⟨t, ht⟩ := go c (by simp [AObj.children]); exact ⟨_, .prefixed ha ht⟩
    | replace c cs => obtain ⟨t, ht⟩ := go c (by simp [AObj.children]); exact ⟨_, .replace ha ht⟩
    | concat cs =>
      obtain ⟨ts, h1, h2⟩ := choose_trees (P := Unfolds A) cs go
      exact ⟨_, .concat ha h1 h2⟩

theorem acc_of_unfolds {A : AHeap} {src : Src} {t : Tree} (h : Unfolds A src t) :
    ∀ i, src = .ref i → Acc (Child A) i := by
  have leaf : ∀ i a, A[i]? = some a → a.children = [] → Acc (Child A) i := by
    intro i a ha hc
    constructor
    rintro j ⟨b, hb, hj⟩
    rw [ha] at hb; cases hb
    rw [hc] at hj; cases hj
  induction h with
  | str s => intro i e; cases e
  | raw e => intro i h; cases h; exact leaf _ _ e rfl
  | original e => intro i h; cases h; exact leaf _ _ e rfl
  | l2l e => intro i h; cases h; exact leaf _ _ e rfl
  | sms e => intro i h; cases h; exact leaf _ _ e rfl
  | prefixed e _ ih =>
    intro i h; cases h
    constructor
    rintro j ⟨b, hb, hj⟩
    rw [e] at hb; cases hb
    simp [AObj.children] at hj
    exact ih j hj.symm
  | replace e _ ih =>
    intro i h; cases h
    constructor
    rintro j ⟨b, hb, hj⟩
    rw [e] at hb; cases hb
    simp [AObj.children] at hj
    exact ih j hj.symm
  | @concat i cs ts e hl hk ih =>
    intro i h; cases h
    constructor
    rintro j ⟨b, hb, hj⟩
    rw [e] at hb; cases hb
    replace hj : Src.ref j ∈ cs := hj
    obtain ⟨k, hk'⟩ := List.mem_iff_getElem?.1 hj
    have := (List.getElem?_eq_some_iff.1 hk').1
    exact ih k (.ref j) ts[k] hk' (List.getElem?_eq_getElem (by omega)) j rfl

end WS
