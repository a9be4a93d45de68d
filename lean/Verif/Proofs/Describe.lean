import Verif.Proofs.History
import Verif.Spec.History
/-! # The abstract heap as a function of the history -/

namespace WS
open Spec

/-- The call of a request. -/
def _root_.WS.Spec.Request.call (r : Request) : Call :=
  ⟨r.start * 16 + r.ordS, (r.stop - 1) * 16 + r.ordE, r.text⟩

/-- The object a constructor call has become after a history. -/
def objOf (ops : List Op) (k : Nat) : Op → Option AObj
  | .newRaw v => some (.raw v)
  | .newOriginal v n i => some (.original v n i)
  | .newL2l v n o => some (.l2l v n o)
  | .newSms v vi n m o inner => some (.sms (Sms.create v vi n m o inner))
  | .newPrefix p c => some (.prefixed p c)
  | .newReplace c => some (.replace c ((requests ops k).map Request.call))
  | .newConcat => some (.concat (items ops k))
  | _ => none

theorem objOf_isSome {op : Op} (h : isNew op = true) (ops : List Op) (k : Nat) :
    (objOf ops k op).isSome := by
  cases op <;> first | rfl | cases h

theorem stepAll_append (A : AHeap) (ops ops' : List Op) :
    stepAll A (ops ++ ops') = (stepAll A ops).bind fun A => stepAll A ops' := by
  induction ops generalizing A with
  | nil => rfl
  | cons op ops ih =>
    simp only [List.cons_append, stepAll]
    cases op.step A with
    | error e => rfl
    | ok B => exact ih B

theorem created_snoc (ops : List Op) (op : Op) :
    created (ops ++ [op]) = created ops ++ if isNew op then [op] else [] := by
  simp only [created, List.filter_append, List.filter_cons, List.filter_nil]

theorem items_snoc_other {ops : List Op} {op : Op} (h : ∀ k c, op ≠ .add k c) (i : Nat) :
    items (ops ++ [op]) i = items ops i := by
  simp only [items, List.reverse_append, List.reverse_cons, List.reverse_nil, List.nil_append,
    List.singleton_append]
  cases op <;> first | rfl | exact absurd rfl (h _ _)

theorem requests_snoc (ops : List Op) (op : Op) (i : Nat) :
    requests (ops ++ [op]) i = requests ops i ++ (requestOf i op).toList := by
  simp only [requests, List.filterMap_append]
  cases h : requestOf i op <;> simp [h]

/-- Heap and history agree. -/
def Described (ops : List Op) (A : AHeap) : Prop :=
  ∀ k : Nat, A[k]? = ((created ops)[k]?).bind (objOf ops k)

theorem getElem?_snoc {α : Type _} (l : List α) (a : α) (k : Nat) :
    (l ++ [a])[k]? = if k = l.length then some a else l[k]? := by
  rw [List.getElem?_append]
  split
  · rw [if_neg (by omega)]
  · split
    · rename_i h; simp [h]
    · rw [List.getElem?_eq_none (by simp; omega), List.getElem?_eq_none (by omega)]

theorem Described.length {ops : List Op} {A : AHeap} (D : Described ops A) :
    A.length = (created ops).length := by
  rcases Nat.lt_trichotomy A.length (created ops).length with h | h | h
  · have := D A.length
    rw [List.getElem?_eq_none (Nat.le_refl _), List.getElem?_eq_getElem h] at this
    simp only [Option.bind_some] at this
    have h2 := objOf_isSome (op := (created ops)[A.length]) (List.mem_filter.1 (List.getElem_mem h)).2 ops A.length
    rw [← this] at h2; cases h2
  · exact h
  · have := D (created ops).length
    rw [List.getElem?_eq_none (l := created ops) (Nat.le_refl _), List.getElem?_eq_getElem h] at this
    cases this

theorem described_new {ops : List Op} {A : AHeap} (D : Described ops A) (op : Op) (a : AObj)
    (hn : isNew op = true) (ha : objOf (ops ++ [op]) A.length op = some a) :
    Described (ops ++ [op]) (A ++ [a]) := by
  intro k
  rw [created_snoc, if_pos hn, getElem?_snoc, getElem?_snoc, D.length]
  split
  · rename_i hk; subst hk; rw [← D.length]; simp [ha]
  · rw [D k]
    congr 1
    funext o
    have h1 : items (ops ++ [op]) k = items ops k :=
      items_snoc_other (by intro a b h; subst h; cases hn) k
    have h2 : requests (ops ++ [op]) k = requests ops k := by
      rw [requests_snoc]
      cases op <;> first | (cases hn; done) | simp [requestOf]
    cases o <;> simp [objOf, h1, h2]

theorem requests_new {ops : List Op} {A : AHeap} (h : stepAll [] ops = .ok A) :
    ∀ k, A.length ≤ k → requests ops k = [] ∧ items ops k = [] := by
  induction ops using snoc_induction generalizing A with
  | nil => intro k _; exact ⟨rfl, rfl⟩
  | snoc ops op ih =>
    rw [stepAll_append] at h
    cases hs : stepAll [] ops with
    | error e => rw [hs] at h; cases h
    | ok B =>
      rw [hs] at h
      replace h : op.step B = .ok A := by
        simp only [Except.bind, stepAll] at h
        cases hB : op.step B with
        | error e => rw [hB] at h; cases h
        | ok C => rw [hB] at h; exact h
      have ih := ih hs
      intro k hk
      rw [requests_snoc]
      cases op with
      | add i item =>
        obtain ⟨hi, hl⟩ : i < B.length ∧ A.length = B.length := by
          simp only [Op.step, aAdd] at h
          split at h
          · rename_i cs hb
            have := (List.getElem?_eq_some_iff.1 hb).1
            split at h
            · cases h; exact ⟨this, by simp⟩
            · split at h
              · cases h
              · split at h
                · cases h
                · cases h; exact ⟨this, by simp⟩
              · cases h; exact ⟨this, by simp⟩
          · cases h
        have hk' := ih k (by omega)
        refine ⟨by simp [requestOf, hk'.1], ?_⟩
        have : i ≠ k := by omega
        simp only [items, List.reverse_append, List.reverse_cons, List.reverse_nil, List.nil_append,
          List.singleton_append]
        cases item <;> simp [itemsRev, this] <;> exact hk'.2
      | replace i s e t o o' =>
        obtain ⟨hi, hl⟩ : i < B.length ∧ A.length = B.length := by
          simp only [Op.step, aCall] at h
          split at h
          · rename_i hb
            have := (List.getElem?_eq_some_iff.1 hb).1
            cases h; exact ⟨this, by simp⟩
          · cases h
        have hk' := ih k (by omega)
        have : i ≠ k := by omega
        exact ⟨by simp [requestOf, hk'.1, this], by
          rw [items_snoc_other (by intro a b h; cases h)]; exact hk'.2⟩
      | insert i p t o =>
        obtain ⟨hi, hl⟩ : i < B.length ∧ A.length = B.length := by
          simp only [Op.step, aCall] at h
          split at h
          · rename_i hb
            have := (List.getElem?_eq_some_iff.1 hb).1
            cases h; exact ⟨this, by simp⟩
          · cases h
        have hk' := ih k (by omega)
        have : i ≠ k := by omega
        exact ⟨by simp [requestOf, hk'.1, this], by
          rw [items_snoc_other (by intro a b h; cases h)]; exact hk'.2⟩
      | newPrefix p c =>
        have : B.length ≤ k := by
          simp only [Op.step] at h
          split at h
          · cases h; simp at hk; omega
          · cases h
        exact ⟨by simp [requestOf, (ih k this).1], by
          rw [items_snoc_other (by intro a b h; cases h)]; exact (ih k this).2⟩
      | newReplace c =>
        have : B.length ≤ k := by
          simp only [Op.step] at h
          split at h
          · cases h; simp at hk; omega
          · cases h
        exact ⟨by simp [requestOf, (ih k this).1], by
          rw [items_snoc_other (by intro a b h; cases h)]; exact (ih k this).2⟩
      | _ =>
        have : B.length ≤ k := by
          simp only [Op.step] at h
          cases h
          first | exact hk | (simp at hk; omega)
        exact ⟨by simp [requestOf, (ih k this).1], by
          rw [items_snoc_other (by intro a b h; cases h)]; exact (ih k this).2⟩

theorem replaceCall_eq (i : Nat) (s e : Int) (t : Str) (o o' : Int) :
    (requestOf i (.replace i s e t o o')).map Request.call = some (replaceCall s e t o o') := by
  simp [requestOf, Request.call, replaceCall, mkReplace, Repl.call]

theorem insertCall_eq (i : Nat) (p : Int) (t : Str) (o : Int) :
    (requestOf i (.insert i p t o)).map Request.call = some (insertCall p t o) := by
  simp [requestOf, Request.call, insertCall, mkInsert, Repl.call]

theorem described_call {ops : List Op} {A A' : AHeap} (D : Described ops A) (op : Op) (i : Nat)
    (c : Call) (hop : (requestOf i op).map Request.call = some c)
    (hne : ∀ k, k ≠ i → requestOf k op = none) (hn : isNew op = false)
    (hadd : ∀ a b, op ≠ .add a b) (e : aCall A i c = .ok A') : Described (ops ++ [op]) A' := by
  unfold aCall at e
  split at e
  · rename_i s cs hA
    cases e
    intro k
    have hD := D k
    rw [created_snoc, hn]
    simp only [Bool.false_eq_true, if_false, List.append_nil]
    rw [List.getElem?_set]
    split
    · rename_i hk
      subst hk
      rw [if_pos (List.getElem?_eq_some_iff.1 hA).1]
      rw [hA] at hD
      cases hc : (created ops)[i]? with
      | none => rw [hc] at hD; cases hD
      | some o =>
        rw [hc] at hD
        cases o <;> simp [objOf] at hD
        obtain ⟨h1, h2⟩ := hD
        cases hr : requestOf i op with
        | none => rw [hr] at hop; cases hop
        | some r =>
          rw [hr] at hop
          simp at hop
          simp [objOf, requests_snoc, hr, h1, h2, hop]
    · rename_i hk
      rw [hD]
      congr 1
      funext o
      have h1 := items_snoc_other (ops := ops) hadd k
      have h2 : requests (ops ++ [op]) k = requests ops k := by
        rw [requests_snoc, hne k (Ne.symm hk)]; simp
      cases o <;> simp [objOf, h1, h2]
  · cases e

theorem items_snoc_add (ops : List Op) (k : Nat) (c : Src) (i : Nat) :
    items (ops ++ [.add k c]) i =
      if k = i then
        items ops i ++ (match c with
          | .str s => [.str s]
          | .ref j => if (created ops)[j]? = some .newConcat then items ops j else [.ref j])
      else items ops i := by
  simp only [items, List.reverse_append, List.reverse_cons, List.reverse_nil, List.nil_append,
    List.singleton_append]
  cases c with
  | str s => simp only [itemsRev]
  | ref j =>
    simp only [itemsRev, List.reverse_reverse]
    split
    · split <;> rfl
    · rfl

theorem Described.concat {ops : List Op} {A : AHeap} (D : Described ops A) {j : Nat}
    {cs : List Src} (h : A[j]? = some (.concat cs)) :
    (created ops)[j]? = some .newConcat ∧ cs = items ops j := by
  have := D j
  rw [h] at this
  cases hc : (created ops)[j]? with
  | none => rw [hc] at this; cases this
  | some o =>
    rw [hc] at this
    cases o <;> simp [objOf] at this
    exact ⟨rfl, this⟩

theorem described_add {ops : List Op} {A A' : AHeap} (D : Described ops A) (i : Nat) (c : Src)
    (e : aAdd A i c = .ok A') : Described (ops ++ [.add i c]) A' := by
  have key : ∀ cs, A[i]? = some (.concat cs) → ∀ new,
      items (ops ++ [.add i c]) i = items ops i ++ new → A' = A.set i (.concat (cs ++ new)) →
      Described (ops ++ [.add i c]) A' := by
    intro cs hA new hnew e k
    subst e
    have hD := D k
    rw [created_snoc]
    simp only [isNew, Bool.false_eq_true, if_false, List.append_nil]
    rw [List.getElem?_set]
    split
    · rename_i hk
      subst hk
      rw [if_pos (List.getElem?_eq_some_iff.1 hA).1]
      obtain ⟨h1, h2⟩ := D.concat hA
      simp [h1, objOf, hnew, h2]
    · rename_i hk
      rw [hD]
      congr 1
      funext o
      have h1 : items (ops ++ [.add i c]) k = items ops k := by
        rw [items_snoc_add, if_neg hk]
      have h2 : requests (ops ++ [.add i c]) k = requests ops k := by
        rw [requests_snoc]; simp [requestOf]
      cases o <;> simp [objOf, h1, h2]
  unfold aAdd at e
  split at e
  · rename_i cs hA
    split at e
    · cases e
      exact key cs hA _ (by rw [items_snoc_add, if_pos rfl]) rfl
    · rename_i j
      split at e
      · cases e
      · rename_i ds hj
        split at e
        · cases e
        · cases e
          obtain ⟨h1, h2⟩ := D.concat hj
          exact key cs hA ds (by rw [items_snoc_add, if_pos rfl]; simp [h1, h2]) rfl
      · rename_i x hx hj
        cases e
        refine key cs hA [.ref j] ?_ rfl
        rw [items_snoc_add, if_pos rfl]
        simp only
        rw [if_neg]
        intro hc
        have := D j
        rw [hc] at this
        simp only [Option.bind_some, objOf] at this
        rw [hj] at this
        injection this with this
        exact hx _ this
  · cases e

theorem described_read {ops : List Op} {A : AHeap} (D : Described ops A) (op : Op)
    (hr : op.isRead = true) : Described (ops ++ [op]) A := by
  intro k
  have hn : isNew op = false := by cases op <;> first | rfl | cases hr
  rw [D k, created_snoc, hn]
  simp only [Bool.false_eq_true, if_false, List.append_nil]
  congr 1
  funext o
  have h1 : items (ops ++ [op]) k = items ops k :=
    items_snoc_other (by intro a b h; subst h; cases hr) k
  have h2 : requests (ops ++ [op]) k = requests ops k := by
    rw [requests_snoc]; cases op <;> first | (cases hr; done) | simp [requestOf]
  cases o <;> simp [objOf, h1, h2]

theorem step_described {ops : List Op} {A A' : AHeap} (h : stepAll [] ops = .ok A)
    (D : Described ops A) (op : Op) (e : op.step A = .ok A') : Described (ops ++ [op]) A' := by
  have hnil := requests_new h A.length (Nat.le_refl _)
  cases op with
  | newRaw v => cases e; exact described_new D _ _ rfl rfl
  | newOriginal v n i => cases e; exact described_new D _ _ rfl rfl
  | newL2l v n i => cases e; exact described_new D _ _ rfl rfl
  | newSms v vi n m o inner => cases e; exact described_new D _ _ rfl rfl
  | newPrefix p c =>
    simp only [Op.step] at e
    split at e
    · cases e; exact described_new D _ _ rfl rfl
    · cases e
  | newReplace c =>
    simp only [Op.step] at e
    split at e
    · cases e; exact described_new D _ _ rfl (by simp [objOf, requests_snoc, hnil.1, requestOf])
    · cases e
  | newConcat =>
    cases e
    exact described_new D _ _ rfl (by
      simp [objOf, items_snoc_other (ops := ops) (op := .newConcat) (by intro a b h; cases h), hnil.2])
  | add i item => exact described_add D i item e
  | replace i s e' t o o' =>
    exact described_call D _ i _ (replaceCall_eq i s e' t o o')
      (by intro k hk; simp [requestOf, Ne.symm hk]) rfl (by intro a b h; cases h) e
  | insert i p t o =>
    exact described_call D _ i _ (insertCall_eq i p t o)
      (by intro k hk; simp [requestOf, Ne.symm hk]) rfl (by intro a b h; cases h) e
  | source i => cases e; exact described_read D _ rfl
  | size i => cases e; exact described_read D _ rfl
  | node i c m => cases e; exact described_read D _ rfl
  | listMap i c m => cases e; exact described_read D _ rfl

theorem stepAll_described {ops : List Op} {A : AHeap} (h : stepAll [] ops = .ok A) :
    Described ops A := by
  induction ops using snoc_induction generalizing A with
  | nil => cases h; intro k; rfl
  | snoc ops op ih =>
    rw [stepAll_append] at h
    cases hs : stepAll [] ops with
    | error e => rw [hs] at h; cases h
    | ok B =>
      rw [hs] at h
      simp only [Except.bind, stepAll] at h
      cases hB : op.step B with
      | error e => rw [hB] at h; cases h
      | ok C => rw [hB] at h; cases h; exact step_described hs (ih hs) op hB

end WS
