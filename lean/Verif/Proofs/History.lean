import Verif.Proofs.Unfold
/-! # Call histories on objects without read state -/

namespace WS

/-! ## Successful reads keep the abstraction, whatever the maps are -/

theorem eachChild_abs {α : Type _} {A : AHeap} {f : Heap → Src → M (α × Heap)}
    (hf : ∀ h c a h', Abs A h → f h c = .ok (a, h') → Abs A h') (cs : List Src) :
    ∀ h as h', Abs A h → eachChild f h cs = .ok (as, h') → Abs A h' := by
  induction cs with
  | nil => intro h as h' H e; simp only [eachChild] at e; cases e; exact H
  | cons c cs ih =>
    intro h as h' H e
    simp only [eachChild] at e
    split at e
    · cases e
    · rename_i a h1 e1
      split at e
      · cases e
      · rename_i as' h2 e2
        cases e
        exact ih h1 as' h' (hf h c a h1 H e1) e2

theorem hNode_abs (A : AHeap) (cols mod : Bool) (fuel : Nat) :
    ∀ (h : Heap) (busy : List Nat) (src : Src) (n : SmNode) (h' : Heap), Abs A h →
      hNode cols mod fuel h busy src = .ok (n, h') → Abs A h' := by
  induction fuel with
  | zero => intro h busy src n h' H e; cases e
  | succ fuel ih =>
    intro h busy src n h' H e
    cases src with
    | str s => cases e
    | ref i =>
      simp only [hNode] at e
      split at e
      · cases e
      · cases hA : A[i]? with
        | none => rw [H.getNone hA] at e; cases e
        | some a =>
          obtain ⟨o, ho, hao⟩ := H.getSome hA
          rw [ho] at e
          cases hao with
          | raw v => cases e; exact H
          | original v n k => cases e; exact H
          | l2l v n k => cases e; exact H
          | @sms s₀ s hr =>
            dsimp only at e
            cases hn : s.node with
            | error x => rw [hn] at e; cases e
            | ok q =>
              obtain ⟨n', s'⟩ := q
              rw [hn] at e; cases e
              exact H.set hA (.sms (.node hr hn))
          | prefixed p c =>
            dsimp only at e
            split at e
            · cases e
            · rename_i e1; cases e; exact ih _ _ _ _ _ H e1
          | @replace c cs rs b hsim =>
            dsimp only at e
            split at e
            · cases e
            · rename_i e1
              split at e
              · cases e
              · cases e
                exact ih _ _ _ _ _ (H.set hA (.replace hsim.afterSort)) e1
          | concat cs =>
            dsimp only at e
            split at e
            · cases e
            · rename_i e1
              cases e
              refine eachChild_abs ?_ cs h _ h' H e1
              intro h c a h' H e
              cases c with
              | str s => cases e; exact H
              | ref j => exact ih _ _ _ _ _ H e

theorem hListMap_abs (A : AHeap) (cols mod : Bool) (fuel : Nat) :
    ∀ (h : Heap) (busy : List Nat) (src : Src) (n : Slm) (h' : Heap), Abs A h →
      hListMap cols mod fuel h busy src = .ok (n, h') → Abs A h' := by
  induction fuel with
  | zero => intro h busy src n h' H e; cases e
  | succ fuel ih =>
    intro h busy src n h' H e
    cases src with
    | str s => cases e
    | ref i =>
      simp only [hListMap] at e
      split at e
      · cases e
      · cases hA : A[i]? with
        | none => rw [H.getNone hA] at e; cases e
        | some a =>
          obtain ⟨o, ho, hao⟩ := H.getSome hA
          rw [ho] at e
          cases hao with
          | raw v => cases e; exact H
          | original v n k => cases e; exact H
          | l2l v n k => cases e; exact H
          | @sms s₀ s hr =>
            dsimp only at e
            cases hn : s.listMap mod with
            | error x => rw [hn] at e; cases e
            | ok q =>
              obtain ⟨n', s'⟩ := q
              rw [hn] at e; cases e
              exact H.set hA (.sms (.listMap hr hn))
          | prefixed p c =>
            dsimp only at e
            split at e
            · cases e
            · rename_i e1; cases e; exact ih _ _ _ _ _ H e1
          | @replace c cs rs b hsim =>
            dsimp only at e
            split at e
            · cases e
            · rename_i e1
              cases e
              exact ih _ _ _ _ _ (H.set hA (.replace hsim.afterSort)) e1
          | concat cs =>
            dsimp only at e
            split at e
            · cases e
            · rename_i e1
              cases e
              refine eachChild_abs ?_ cs h _ h' H e1
              intro h c a h' H e
              cases c with
              | str s => cases e; exact H
              | ref j =>
                dsimp only at e
                split at e
                · cases e
                · rename_i e2; cases e; exact ih _ _ _ _ _ H e2

/-! ## Calls -/

/-- `Src.valid` on abstract heaps. -/
def Src.validA (A : AHeap) : Src → Bool
  | .str _ => true
  | .ref i => i < A.length

/-- `hAdd` on abstract heaps. -/
def aAdd (A : AHeap) (i : Nat) (item : Src) : M AHeap :=
  match A[i]? with
  | some (.concat cs) =>
    match item with
    | .str s => .ok (A.set i (.concat (cs ++ [.str s])))
    | .ref j =>
      match A[j]? with
      | none => .error .dangling
      | some (.concat ds) =>
        if j = i then .error .borrow else .ok (A.set i (.concat (cs ++ ds)))
      | some _ => .ok (A.set i (.concat (cs ++ [.ref j])))
  | _ => .error .dangling

/-- `hReplace`, `hInsert` on abstract heaps. -/
def aCall (A : AHeap) (i : Nat) (c : Call) : M AHeap :=
  match A[i]? with
  | some (.replace s cs) => .ok (A.set i (.replace s (cs ++ [c])))
  | _ => .error .dangling

/-- The call a `Repl` constructor stands for. -/
def replaceCall (start stop : Int) (text : Str) (o o' : Int) : Call :=
  (mkReplace 0 start stop text o o').call

/-- See `replaceCall`. -/
def insertCall (pos : Int) (text : Str) (o : Int) : Call := (mkInsert 0 pos text o).call

/-- What a call does to the abstract heap: reads do nothing. -/
def Op.step (A : AHeap) : Op → M AHeap
  | .newRaw v => .ok (A ++ [.raw v])
  | .newOriginal v n i => .ok (A ++ [.original v n i])
  | .newL2l v n o => .ok (A ++ [.l2l v n o])
  | .newSms v vi n m o inner => .ok (A ++ [.sms (Sms.create v vi n m o inner)])
  | .newPrefix p c => if c.validA A then .ok (A ++ [.prefixed p c]) else .error .dangling
  | .newReplace c => if c.validA A then .ok (A ++ [.replace c []]) else .error .dangling
  | .newConcat => .ok (A ++ [.concat []])
  | .add i item => aAdd A i item
  | .replace i s e t o o' => aCall A i (replaceCall s e t o o')
  | .insert i p t o => aCall A i (insertCall p t o)
  | .source _ | .size _ | .node .. | .listMap .. => .ok A

/-- Related results of a mutating call. -/
def StepSim (r : M AHeap) (r' : M Heap) : Prop :=
  (∃ e, r = .error e ∧ r' = .error e) ∨ ∃ A h, r = .ok A ∧ r' = .ok h ∧ Abs A h

theorem aAdd_sim {A : AHeap} {h : Heap} (H : Abs A h) (i : Nat) (item : Src) :
    StepSim (aAdd A i item) (hAdd h i item) := by
  unfold aAdd hAdd
  cases hA : A[i]? with
  | none => rw [H.getNone hA]; exact .inl ⟨_, rfl, rfl⟩
  | some a =>
    obtain ⟨o, ho, hao⟩ := H.getSome hA
    rw [ho]
    cases hao with
    | concat cs =>
      cases item with
      | str s => exact .inr ⟨_, _, rfl, rfl, H.setBoth (.concat _)⟩
      | ref j =>
        dsimp only
        cases hB : A[j]? with
        | none => rw [H.getNone hB]; exact .inl ⟨_, rfl, rfl⟩
        | some b =>
          obtain ⟨o', ho', hao'⟩ := H.getSome hB
          rw [ho']
          cases hao' with
          | concat ds =>
            dsimp only
            split
            · exact .inl ⟨_, rfl, rfl⟩
            · exact .inr ⟨_, _, rfl, rfl, H.setBoth (.concat _)⟩
          | _ => exact .inr ⟨_, _, rfl, rfl, H.setBoth (.concat _)⟩
    | _ => exact .inl ⟨_, rfl, rfl⟩

theorem hReplace_sim {A : AHeap} {h : Heap} (H : Abs A h) (i : Nat) (s e : Int) (t : Str)
    (o o' : Int) : StepSim (aCall A i (replaceCall s e t o o')) (hReplace h i s e t o o') := by
  unfold aCall hReplace
  cases hA : A[i]? with
  | none => rw [H.getNone hA]; exact .inl ⟨_, rfl, rfl⟩
  | some a =>
    obtain ⟨o, ho, hao⟩ := H.getSome hA
    rw [ho]
    cases hao with
    | replace hs => exact .inr ⟨_, _, rfl, rfl, H.setBoth (.replace (hs.push _))⟩
    | _ => exact .inl ⟨_, rfl, rfl⟩

theorem hInsert_sim {A : AHeap} {h : Heap} (H : Abs A h) (i : Nat) (p : Int) (t : Str)
    (o : Int) : StepSim (aCall A i (insertCall p t o)) (hInsert h i p t o) := by
  unfold aCall hInsert
  cases hA : A[i]? with
  | none => rw [H.getNone hA]; exact .inl ⟨_, rfl, rfl⟩
  | some a =>
    obtain ⟨o, ho, hao⟩ := H.getSome hA
    rw [ho]
    cases hao with
    | replace hs => exact .inr ⟨_, _, rfl, rfl, H.setBoth (.replace (hs.push _))⟩
    | _ => exact .inl ⟨_, rfl, rfl⟩

theorem Src.valid_eq {A : AHeap} {h : Heap} (H : Abs A h) (c : Src) : c.valid h = c.validA A := by
  cases c <;> simp [Src.valid, Src.validA, H.1]

theorem StepSim.run {r : M AHeap} {r' : M Heap} (s : StepSim r r') {a : Answer} {h' : Heap}
    (e : (r'.map fun h => (Answer.done, h)) = .ok (a, h')) : ∃ A', r = .ok A' ∧ Abs A' h' := by
  rcases s with ⟨x, _, h2⟩ | ⟨A, h, h1, h2, H⟩
  · rw [h2] at e; cases e
  · rw [h2] at e; cases e; exact ⟨A, h1, H⟩

/-- A call that succeeds acts on the abstract heap. -/
theorem Op.run_abs {A : AHeap} {h : Heap} (H : Abs A h) (op : Op) {a : Answer} {h' : Heap}
    (e : op.run h = .ok (a, h')) : ∃ A', op.step A = .ok A' ∧ Abs A' h' := by
  cases op with
  | newRaw v => cases e; exact ⟨_, rfl, H.push (.raw _)⟩
  | newOriginal v n i => cases e; exact ⟨_, rfl, H.push (.original _ _ _)⟩
  | newL2l v n i => cases e; exact ⟨_, rfl, H.push (.l2l _ _ _)⟩
  | newSms v vi n m o inner => cases e; exact ⟨_, rfl, H.push (.sms .refl)⟩
  | newPrefix p c =>
    simp only [Op.run, Op.step, Src.valid_eq H] at e ⊢
    split at e
    · rename_i hc; cases e; exact ⟨_, by simp [hc], H.push (.prefixed _ _)⟩
    · cases e
  | newReplace c =>
    simp only [Op.run, Op.step, Src.valid_eq H] at e ⊢
    split at e
    · rename_i hc; cases e; exact ⟨_, by simp [hc], H.push (.replace (.nil _))⟩
    · cases e
  | newConcat => cases e; exact ⟨_, rfl, H.push (.concat _)⟩
  | add i item => exact (aAdd_sim H i item).run e
  | replace i s e' t o o' => exact (hReplace_sim H i s e' t o o').run e
  | insert i p t o => exact (hInsert_sim H i p t o).run e
  | source i =>
    obtain ⟨h1, H1, e1⟩ := hSource_computes A (budget h) h [] (.ref i) H
    simp only [Op.run, apiSource, e1] at e
    cases hx : aSource (budget h) A [] (.ref i) with
    | error x => rw [hx] at e; cases e
    | ok x => rw [hx] at e; cases e; exact ⟨_, rfl, H1⟩
  | size i =>
    obtain ⟨h1, H1, e1⟩ := hSize_computes A (budget h) h [] (.ref i) H
    simp only [Op.run, apiSize, e1] at e
    cases hx : aSize (budget h) A [] (.ref i) with
    | error x => rw [hx] at e; cases e
    | ok x => rw [hx] at e; cases e; exact ⟨_, rfl, H1⟩
  | node i c m =>
    simp only [Op.run] at e
    cases hx : apiNode h i c m with
    | error x => rw [hx] at e; cases e
    | ok x =>
      rw [hx] at e; cases e
      exact ⟨_, rfl, hNode_abs A c m _ _ _ _ _ _ H hx⟩
  | listMap i c m =>
    simp only [Op.run] at e
    cases hx : apiListMap h i c m with
    | error x => rw [hx] at e; cases e
    | ok x =>
      rw [hx] at e; cases e
      exact ⟨_, rfl, hListMap_abs A c m _ _ _ _ _ _ H hx⟩

/-- A mutating call that succeeds on the abstract heap succeeds on the heap. -/
theorem Op.abs_run {A A' : AHeap} {h : Heap} (H : Abs A h) (op : Op) (hr : op.isRead = false)
    (e : op.step A = .ok A') : ∃ a h', op.run h = .ok (a, h') ∧ Abs A' h' := by
  have key : ∀ {r : M AHeap} {r' : M Heap}, StepSim r r' → r = .ok A' →
      ∃ a h', (r'.map fun h => (Answer.done, h)) = .ok (a, h') ∧ Abs A' h' := by
    intro r r' s e
    rcases s with ⟨x, h1, _⟩ | ⟨A, h, h1, h2, H⟩
    · rw [h1] at e; cases e
    · rw [h1] at e; cases e; exact ⟨_, h, by rw [h2]; rfl, H⟩
  cases op with
  | newRaw v => cases e; exact ⟨_, _, rfl, H.push (.raw _)⟩
  | newOriginal v n i => cases e; exact ⟨_, _, rfl, H.push (.original _ _ _)⟩
  | newL2l v n i => cases e; exact ⟨_, _, rfl, H.push (.l2l _ _ _)⟩
  | newSms v vi n m o inner => cases e; exact ⟨_, _, rfl, H.push (.sms .refl)⟩
  | newPrefix p c =>
    simp only [Op.run, Op.step, Src.valid_eq H] at e ⊢
    split at e
    · rename_i hc; cases e; simp only [hc, if_true]; exact ⟨_, _, rfl, H.push (.prefixed _ _)⟩
    · cases e
  | newReplace c =>
    simp only [Op.run, Op.step, Src.valid_eq H] at e ⊢
    split at e
    · rename_i hc; cases e; simp only [hc, if_true]; exact ⟨_, _, rfl, H.push (.replace (.nil _))⟩
    · cases e
  | newConcat => cases e; exact ⟨_, _, rfl, H.push (.concat _)⟩
  | add i item => exact key (aAdd_sim H i item) e
  | replace i s e' t o o' => exact key (hReplace_sim H i s e' t o o') e
  | insert i p t o => exact key (hInsert_sim H i p t o) e
  | source i => cases hr
  | size i => cases hr
  | node i c m => cases hr
  | listMap i c m => cases hr

/-- A history on the abstract heap. -/
def stepAll : AHeap → List Op → M AHeap
  | A, [] => .ok A
  | A, op :: ops => (op.step A).bind fun A => stepAll A ops

theorem runFrom_abs {A : AHeap} {h : Heap} (H : Abs A h) (ops : List Op) {h' : Heap}
    (e : runFrom h ops = .ok h') : ∃ A', stepAll A ops = .ok A' ∧ Abs A' h' := by
  induction ops generalizing A h with
  | nil => cases e; exact ⟨A, rfl, H⟩
  | cons op ops ih =>
    simp only [runFrom] at e
    split at e
    · cases e
    · rename_i a h1 e1
      obtain ⟨A1, e2, H1⟩ := op.run_abs H e1
      obtain ⟨A2, e3, H2⟩ := ih H1 e
      exact ⟨A2, by simp [stepAll, e2, Except.bind, e3], H2⟩

theorem stepAll_filter (A : AHeap) (ops : List Op) :
    stepAll A (ops.filter fun op => !op.isRead) = stepAll A ops := by
  induction ops generalizing A with
  | nil => rfl
  | cons op ops ih =>
    cases hr : op.isRead with
    | false =>
      rw [List.filter_cons_of_pos (by simp [hr])]
      simp only [stepAll]
      congr 1
      funext A
      exact ih A
    | true =>
      rw [List.filter_cons_of_neg (by simp [hr])]
      have : op.step A = .ok A := by cases op <;> first | rfl | cases hr
      simp [stepAll, this, Except.bind, ih]

theorem abs_runFrom {A A' : AHeap} {h : Heap} (H : Abs A h) (ops : List Op)
    (hr : ∀ op ∈ ops, op.isRead = false)
    (e : stepAll A ops = .ok A') : ∃ h', runFrom h ops = .ok h' ∧ Abs A' h' := by
  induction ops generalizing A h with
  | nil => cases e; exact ⟨h, rfl, H⟩
  | cons op ops ih =>
    simp only [stepAll] at e
    cases hs : op.step A with
    | error x => rw [hs] at e; cases e
    | ok A1 =>
      rw [hs] at e
      obtain ⟨a, h1, e1, H1⟩ := op.abs_run H (hr op (by simp)) hs
      obtain ⟨h2, e2, H2⟩ := ih H1 (fun op ho => hr op (by simp [ho])) e
      exact ⟨h2, by simp [runFrom, e1, e2], H2⟩

theorem Abs.empty : Abs [] [] := ⟨rfl, by simp⟩

theorem run_abs {ops : List Op} {h : Heap} (e : run ops = .ok h) :
    ∃ A, stepAll [] ops = .ok A ∧ Abs A h := runFrom_abs Abs.empty ops e

end WS
