import Verif.Spec.Js
import Verif.Proofs.Reads
/-! # The state of a JavaScript program and the heap below it -/

namespace WS
open Spec

theorem Except.bind_ok_iff {ε α β : Type} {x : Except ε α} {f : α → Except ε β} {b : β} :
    x.bind f = .ok b ↔ ∃ a, x = .ok a ∧ f a = .ok b := by
  cases x with
  | error e => simp [Except.bind]
  | ok a => simp [Except.bind]

theorem Except.map_ok_iff {ε α β : Type} {x : Except ε α} {f : α → β} {b : β} :
    x.map f = .ok b ↔ ∃ a, x = .ok a ∧ f a = b := by
  cases x with
  | error e => simp [Except.map]
  | ok a => simp [Except.map]

/-! ## Positions -/

theorem floor_add_int (x : Rat) (n : Int) : (x + n).floor = x.floor + n := by
  apply Int.le_antisymm
  · have : (x + n).floor - n ≤ x.floor := by
      rw [Rat.le_floor_iff, Rat.intCast_sub]
      have := Rat.floor_le (x + n)
      grind
    omega
  · rw [Rat.le_floor_iff, Rat.intCast_add]
    have := Rat.floor_le x
    grind

theorem floor_int (n : Int) : (n : Rat).floor = n := Rat.floor_intCast n

/-- For a proper position the two parts make the sixteenth it lies in. -/
theorem jsOrder_proper {q : Rat} (h : Proper q) : q.floor * 16 + jsOrder q = sixteenth q := by
  have key : ((q - q.floor) * 16).floor = sixteenth q - q.floor * 16 := by
    have : (q - q.floor) * 16 = 16 * q + ((-(q.floor * 16) : Int) : Rat) := by
      rw [Rat.intCast_neg, Rat.intCast_mul]; grind
    rw [this, floor_add_int, sixteenth]; omega
  rcases h with h | h
  · simp only [jsOrder, h, if_true, key]; omega
  · have hc : q.ceil = q.floor := by
      rw [← h]
      rw [floor_int]
      exact Rat.ceil_intCast _
    simp only [jsOrder, hc, ite_self, key]; omega

theorem sixteenth_div (q : Rat) : sixteenth q / 16 = q.floor := by
  have h1 : q.floor * 16 ≤ sixteenth q := by
    rw [sixteenth, Rat.le_floor_iff, Rat.intCast_mul]
    have := Rat.floor_le q
    grind
  have h2 : sixteenth q < (q.floor + 1) * 16 := by
    rw [sixteenth, Rat.floor_lt_iff, Rat.intCast_mul]
    have : q < ((q.floor + 1 : Int) : Rat) := Rat.floor_lt_iff.1 (by omega)
    grind
  omega

theorem sixteenth_sub_one (q : Rat) : sixteenth (q - 1) = sixteenth q - 16 := by
  have : 16 * (q - 1) = 16 * q + ((-16 : Int) : Rat) := by
    have : ((-16 : Int) : Rat) = -16 := rfl
    rw [this]; grind
  rw [sixteenth, this, floor_add_int, sixteenth]; omega

/-! ## Requests -/

/-- The call behind a request. -/
def _root_.WS.Spec.JRequest.call (r : JRequest) : Call := ⟨sixteenth r.first, sixteenth r.last, r.text⟩

/-- The element behind a numbered request. -/
def numbered (x : JRequest × Nat) : Repl := ⟨sixteenth x.1.first, sixteenth x.1.last, x.1.text, x.2⟩

theorem tag_numbered (rs : List JRequest) (n : Nat) :
    tag n (rs.map JRequest.call) = (rs.zipIdx n).map numbered := by
  induction rs generalizing n with
  | nil => rfl
  | cons r rs ih => simp [tag, ih, numbered, JRequest.call]

theorem numbered_edit (x : JRequest × Nat) : (numbered x).edit = x.1.edit := by
  simp [numbered, Repl.edit, JRequest.edit, Repl.start, Repl.stop, sixteenth_div]

theorem before_le {x y : JRequest × Nat} (h : Before x y) :
    Repl.le (numbered x) (numbered y) = true := by
  rw [Repl.le_iff]
  simp only [Before, numbered] at *
  omega

theorem _root_.WS.Spec.RightToLeft.sorted {rs : List JRequest} {es : List (JRequest × Nat)} (h : RightToLeft rs es) :
    (sortedCalls (rs.map JRequest.call)).map Repl.edit = es.map fun e => e.1.edit := by
  have hp : (es.map numbered).Perm (tag 0 (rs.map JRequest.call)) := by
    rw [tag_numbered]; exact h.perm.map _
  have : sortedCalls (rs.map JRequest.call) = es.map numbered := by
    rw [sortedCalls, sortBy_perm_eq Repl.le_total Repl.le_trans hp.symm tag_antisymm]
    apply sortBy_of_pairwise
    rw [List.pairwise_map]
    exact h.order.imp before_le
  rw [this, List.map_map]
  exact List.map_congr_left fun x _ => numbered_edit x

theorem rightToLeft_exists (rs : List JRequest) : ∃ es, RightToLeft rs es := by
  let le : JRequest × Nat → JRequest × Nat → Bool := fun x y => Repl.le (numbered x) (numbered y)
  have hp : (sortBy le rs.zipIdx).Perm rs.zipIdx := sortBy_perm _
  refine ⟨sortBy le rs.zipIdx, hp, ?_⟩
  have h1 : (sortBy le rs.zipIdx).Pairwise (fun x y => le x y = true) :=
    sortBy_pairwise (le := le) (fun a b => Repl.le_total (numbered a) (numbered b))
      (fun a b c => Repl.le_trans (numbered a) (numbered b) (numbered c)) _
  have h2 : (sortBy le rs.zipIdx).Pairwise (fun x y => x.2 ≠ y.2) := by
    have : (rs.zipIdx).Pairwise (fun x y => x.2 ≠ y.2) := by
      rw [← List.pairwise_map (f := Prod.snd) (R := (· ≠ ·)), List.zipIdx_map_snd]
      exact (List.nodup_range')
    exact (hp.symm.pairwise this (fun h => Ne.symm h))
  refine (h1.and h2).imp ?_
  rintro x y ⟨h, hne⟩
  have := (Repl.le_iff _ _).1 h
  simp only [numbered] at this
  simp only [Before]
  omega

/-! ## Objects -/

/-- Where an argument points, given the wasm objects of the JavaScript objects. -/
def tr (ptrs : List Nat) : JSrc → Option Src
  | .str s => some (.str s)
  | .obj j => ptrs[j]?.map .ref

/-- The text of the leaf kinds. -/
def AObj.leafText : AObj → Option Str
  | .raw v => some v
  | .original v _ _ => some v
  | .l2l v _ _ => some v
  | .sms s => some s.value
  | _ => none

/-- What the leaf kinds hash after their value. -/
def JKind.extra : JKind → List Str
  | .l2l _ o => [o]
  | .sms _ o => o.toList
  | _ => []

/-- An object, its JavaScript fields and the wasm object it points to agree. -/
inductive SimThing (A : AHeap) (ptrs : List Nat) (p : Nat) : JKind → JThing → Prop where
  | leaf {k : JKind} {v : Str} {a : AObj} : k.value = some v → A[p]? = some a →
      a.leafText = some v → SimThing A ptrs p k (.leaf v k.extra)
  | prefixed {pre : Str} {c : JSrc} {c' : Src} : A[p]? = some (.prefixed pre c') →
      tr ptrs c = some c' → SimThing A ptrs p (.prefixed pre c) (.prefixed pre c)
  | replaced {c : JSrc} {c' : Src} {rs : List JRequest} :
      A[p]? = some (.replace c' (rs.map JRequest.call)) → tr ptrs c = some c' →
      SimThing A ptrs p (.replace c) (.replaced c rs)
  | joined {cs items : List JSrc} {is : List Src} : A[p]? = some (.concat is) →
      items.map (tr ptrs) = is.map some → SimThing A ptrs p (.concat cs) (.joined items)

/-- All objects agree. -/
structure SimAll (A : AHeap) (objs : List JObj) (st : List JThing) : Prop where
  len : objs.length = st.length
  each : ∀ (j : Nat) (o : JObj) (x : JThing), objs[j]? = some o → st[j]? = some x →
    SimThing A (objs.map JObj.ptr) o.ptr o.kind x

theorem SimAll.get {A : AHeap} {objs : List JObj} {st : List JThing} (S : SimAll A objs st) {j : Nat}
    {x : JThing} (h : st[j]? = some x) :
    ∃ o, objs[j]? = some o ∧ SimThing A (objs.map JObj.ptr) o.ptr o.kind x := by
  have hj : j < objs.length := by rw [S.len]; exact (List.getElem?_eq_some_iff.1 h).1
  exact ⟨objs[j], List.getElem?_eq_getElem hj, S.each j _ x (List.getElem?_eq_getElem hj) h⟩

theorem SimAll.get' {A : AHeap} {objs : List JObj} {st : List JThing} (S : SimAll A objs st) {j : Nat}
    {o : JObj} (h : objs[j]? = some o) :
    ∃ x, st[j]? = some x ∧ SimThing A (objs.map JObj.ptr) o.ptr o.kind x := by
  have hj : j < st.length := by rw [← S.len]; exact (List.getElem?_eq_some_iff.1 h).1
  exact ⟨st[j], List.getElem?_eq_getElem hj, S.each j o _ h (List.getElem?_eq_getElem hj)⟩

theorem tr_obj {objs : List JObj} {j : Nat} {o : JObj} (h : objs[j]? = some o) :
    tr (objs.map JObj.ptr) (.obj j) = some (.ref o.ptr) := by
  simp [tr, h]

theorem tr_obj_inv {objs : List JObj} {j i : Nat} (h : tr (objs.map JObj.ptr) (.obj j) = some (.ref i)) :
    ∃ o, objs[j]? = some o ∧ o.ptr = i := by
  simp only [tr, List.getElem?_map, Option.map_map] at h
  cases ho : objs[j]? with
  | none => rw [ho] at h; cases h
  | some o => rw [ho] at h; simp at h; exact ⟨o, rfl, h⟩

/-- The text a program describes is the text of the object graph. -/
theorem _root_.WS.Spec.JText.unfolds {A : AHeap} {objs : List JObj} {st : List JThing} (S : SimAll A objs st)
    {src : JSrc} {s : Str} (h : JText st src s) :
    ∀ src', tr (objs.map JObj.ptr) src = some src' → ∃ t, Unfolds A src' t ∧ t.text = s := by
  induction h with
  | str s => intro src' e; cases e; exact ⟨_, .str s, rfl⟩
  | leaf hx =>
    intro src' e
    obtain ⟨o, ho, sim⟩ := S.get hx
    rw [tr_obj ho] at e; cases e
    generalize o.kind = k at sim
    cases sim with
    | leaf hk hA ha =>
      rename_i a
      cases a <;> simp only [AObj.leafText, Option.some.injEq, reduceCtorEq] at ha
      · exact ⟨_, .raw hA, ha⟩
      · exact ⟨_, .original hA, ha⟩
      · exact ⟨_, .l2l hA, ha⟩
      · exact ⟨_, .sms hA, ha⟩
  | prefixed hx hc ih =>
    intro src' e
    obtain ⟨o, ho, sim⟩ := S.get hx
    rw [tr_obj ho] at e; cases e
    generalize o.kind = k at sim
    cases sim with
    | prefixed hA hc' =>
      obtain ⟨t, ht, rfl⟩ := ih _ hc'
      exact ⟨_, .prefixed hA ht, rfl⟩
  | replaced hx hc hr ih =>
    intro src' e
    obtain ⟨o, ho, sim⟩ := S.get hx
    rw [tr_obj ho] at e; cases e
    generalize o.kind = k at sim
    cases sim with
    | replaced hA hc' =>
      obtain ⟨t, ht, rfl⟩ := ih _ hc'
      exact ⟨_, .replace hA ht, by rw [Tree.text, hr.sorted]⟩
  | @joined j items ss hx hl hk ih =>
    intro src' e
    obtain ⟨o, ho, sim⟩ := S.get hx
    rw [tr_obj ho] at e; cases e
    generalize o.kind = k at sim
    cases sim with
    | @joined cs _ is hA hi =>
      have hlen : items.length = is.length := by simpa using congrArg List.length hi
      have hex : ∀ k : Nat, k < is.length → ∃ t : Tree, ∀ c s, is[k]? = some c → ss[k]? = some s →
          Unfolds A c t ∧ t.text = s := by
        intro k hk'
        have e1 : items[k]? = some items[k] := List.getElem?_eq_getElem (by omega)
        have e2 : is[k]? = some is[k] := List.getElem?_eq_getElem hk'
        have e3 : ss[k]? = some (ss[k]'(by omega)) := List.getElem?_eq_getElem (by omega)
        have e4 : tr (objs.map JObj.ptr) items[k] = some is[k] := by
          have := congrArg (fun l => l[k]?) hi
          simpa [List.getElem?_map, e1, e2] using this
        obtain ⟨t, ht, h2⟩ := ih k _ _ e1 e3 _ e4
        refine ⟨t, fun c s hc hs => ?_⟩
        rw [e2] at hc; rw [e3] at hs; cases hc; cases hs
        exact ⟨ht, h2⟩
      have hts : ∃ ts : List Tree, ts.length = is.length ∧ ∀ (k : Nat) c t s, is[k]? = some c →
          ts[k]? = some t → ss[k]? = some s → Unfolds A c t ∧ t.text = s := by
        have : ∀ n, n ≤ is.length → ∃ ts : List Tree, ts.length = n ∧ ∀ (k : Nat) c t s, is[k]? = some c →
            ts[k]? = some t → ss[k]? = some s → Unfolds A c t ∧ t.text = s := by
          intro n
          induction n with
          | zero => exact fun _ => ⟨[], rfl, by simp⟩
          | succ n ihn =>
            intro hn
            obtain ⟨ts, h1, h2⟩ := ihn (by omega)
            obtain ⟨t, ht⟩ := hex n (by omega)
            refine ⟨ts ++ [t], by simp [h1], ?_⟩
            intro k c t' s hc ht' hs
            rw [List.getElem?_append] at ht'
            split at ht'
            · exact h2 k c t' s hc ht' hs
            · rename_i hk'
              have : k = n := by
                have := (List.getElem?_eq_some_iff.1 ht').1
                simp at this; omega
              subst this
              simp [h1] at ht'
              subst ht'
              exact ht c s hc hs
        exact this _ (Nat.le_refl _)
      obtain ⟨ts, h1, h2⟩ := hts
      refine ⟨_, .concat hA h1 ?_, ?_⟩
      · intro k c t hc ht
        have hk' := (List.getElem?_eq_some_iff.1 hc).1
        exact (h2 k c t (ss[k]'(by omega)) hc ht (List.getElem?_eq_getElem (by omega))).1
      · rw [Tree.text, Tree.texts_eq]
        congr 1
        apply List.ext_getElem?
        intro k
        rw [List.getElem?_map]
        by_cases hk' : k < is.length
        · have e1 : ts[k]? = some (ts[k]'(by omega)) := List.getElem?_eq_getElem (by omega)
          have e3 : ss[k]? = some (ss[k]'(by omega)) := List.getElem?_eq_getElem (by omega)
          rw [e1, e3, Option.map_some, (h2 k is[k] _ _ (List.getElem?_eq_getElem hk') e1 e3).2]
        · rw [List.getElem?_eq_none (by omega), List.getElem?_eq_none (by omega)]; rfl

/-- Conversely. -/
theorem _root_.WS.Spec.JText.of_unfolds {A : AHeap} {objs : List JObj} {st : List JThing} (S : SimAll A objs st)
    {src' : Src} {t : Tree} (h : Unfolds A src' t) :
    ∀ src, tr (objs.map JObj.ptr) src = some src' → JText st src t.text := by
  have leafCase : ∀ (i : Nat) (a : AObj) (v : Str), A[i]? = some a → a.leafText = some v →
      ∀ src, tr (objs.map JObj.ptr) src = some (.ref i) → JText st src v := by
    intro i a v hA ha src e
    cases src with
    | str s => cases e
    | obj j =>
      obtain ⟨o, ho, rfl⟩ := tr_obj_inv e
      obtain ⟨x, hx, sim⟩ := S.get' ho
      generalize o.kind = k at sim
      cases sim with
      | leaf hk hA' ha' => rw [hA] at hA'; cases hA'; rw [ha] at ha'; cases ha'; exact .leaf hx
      | prefixed hA' _ => rw [hA] at hA'; cases hA'; cases ha
      | replaced hA' _ => rw [hA] at hA'; cases hA'; cases ha
      | joined hA' _ => rw [hA] at hA'; cases hA'; cases ha
  induction h with
  | str s =>
    intro src e
    cases src with
    | str s' => cases e; exact .str _
    | obj j =>
      simp only [tr] at e
      cases hp : (objs.map JObj.ptr)[j]? with
      | none => rw [hp] at e; cases e
      | some p => rw [hp] at e; cases e
  | raw hA => exact leafCase _ _ _ hA rfl
  | original hA => exact leafCase _ _ _ hA rfl
  | l2l hA => exact leafCase _ _ _ hA rfl
  | sms hA => exact leafCase _ _ _ hA rfl
  | prefixed hA hc ih =>
    intro src e
    cases src with
    | str s => cases e
    | obj j =>
      obtain ⟨o, ho, rfl⟩ := tr_obj_inv e
      obtain ⟨x, hx, sim⟩ := S.get' ho
      generalize o.kind = k at sim
      cases sim with
      | leaf hk hA' ha' => rw [hA] at hA'; cases hA'; cases ha'
      | prefixed hA' hc' => rw [hA] at hA'; cases hA'; exact .prefixed hx (ih _ hc')
      | replaced hA' _ => rw [hA] at hA'; cases hA'
      | joined hA' _ => rw [hA] at hA'; cases hA'
  | replace hA hc ih =>
    intro src e
    cases src with
    | str s => cases e
    | obj j =>
      obtain ⟨o, ho, rfl⟩ := tr_obj_inv e
      obtain ⟨x, hx, sim⟩ := S.get' ho
      generalize o.kind = k at sim
      cases sim with
      | leaf hk hA' ha' => rw [hA] at hA'; cases hA'; cases ha'
      | prefixed hA' hc' => rw [hA] at hA'; cases hA'
      | replaced hA' hc' =>
        rw [hA] at hA'; cases hA'
        obtain ⟨es, he⟩ := rightToLeft_exists _
        rw [Tree.text, he.sorted]
        exact .replaced hx (ih _ hc') he
      | joined hA' _ => rw [hA] at hA'; cases hA'
  | @concat i is ts hA hl hk ih =>
    intro src e
    cases src with
    | str s => cases e
    | obj j =>
      obtain ⟨o, ho, rfl⟩ := tr_obj_inv e
      obtain ⟨x, hx, sim⟩ := S.get' ho
      generalize o.kind = k at sim
      cases sim with
      | leaf hk hA' ha' => rw [hA] at hA'; cases hA'; cases ha'
      | prefixed hA' hc' => rw [hA] at hA'; cases hA'
      | replaced hA' _ => rw [hA] at hA'; cases hA'
      | @joined cs items is' hA' hi =>
        rw [hA] at hA'; cases hA'
        have hlen : items.length = is.length := by simpa using congrArg List.length hi
        rw [Tree.text, Tree.texts_eq]
        refine .joined hx (by simp; omega) ?_
        intro k i s hi' hs
        rw [List.getElem?_map] at hs
        cases ht : ts[k]? with
        | none => rw [ht] at hs; cases hs
        | some t =>
          rw [ht] at hs; cases hs
          have hk' := (List.getElem?_eq_some_iff.1 ht).1
          have e2 : is[k]? = some (is[k]'(by omega)) := List.getElem?_eq_getElem (by omega)
          refine ih k _ t e2 ht i ?_
          have := congrArg (fun l => l[k]?) hi
          simpa [List.getElem?_map, hi', e2] using this

end WS
