import Verif.Proofs.Rewrite
/-! # Rewriting by edits, with what is said of every character

The same as in `Verif/Proofs/ListText.lean`, for lists of anything. -/

namespace WS
open Spec

variable {α : Type}

/-- `Spec.splice` for lists of anything; `g` makes elements of the texts of edits. -/
def Spec.spliceG (g : Char → α) (s : List α) : Nat → List Edit → List α
  | k, [] => s.drop k
  | k, e :: es => (s.take e.start.toNat).drop k ++ e.text.map g ++ spliceG g s e.stop.toNat es

/-- `stepChars` for lists of anything. -/
def stepG (n : Int) (s : List α) : Except (Int × Int) (List α × List α) :=
  if n ≤ 0 then .ok ([], s)
  else if n.toNat ≤ s.length then .ok (s.take n.toNat, s.drop n.toNat)
  else .error (n - s.length, s.length)

/-- `rmLoop` for lists of anything. -/
def rmLoopG (g : Char → α) (cur : Int) (s : List α) : List Repl → List α × RmState
  | [] => (s, { cur, pending := [], remove := 0 })
  | r :: rs =>
    match stepG (r.start - cur) s with
    | .error (_, chars) => (s, { cur := cur + chars, pending := r :: rs, remove := 0 })
    | .ok (pre, s1) =>
      let cur := cur + pre.length
      match stepG (r.stop - cur) s1 with
      | .ok (skip, s2) =>
        let (out, st) := rmLoopG g (cur + skip.length) s2 rs
        (pre ++ r.text.map g ++ out, st)
      | .error (n, chars) =>
        (pre ++ r.text.map g, { cur := cur + chars, pending := rs, remove := max n 0 })

/-- `rmMap` for lists of anything. -/
def rmMapG (g : Char → α) (st : RmState) (code : List α) : List α × RmState :=
  if st.remove > 0 then
    match stepG st.remove code with
    | .ok (skip, rest) => rmLoopG g (st.cur + skip.length) rest st.pending
    | .error (n, chars) => ([], { st with cur := st.cur + chars, remove := n })
  else rmLoopG g st.cur code st.pending

/-- Apply a function with state to lists, one after the other. -/
def runG (F : σ → List α → List α × σ) : σ → List (List α) → List α × σ
  | st, [] => ([], st)
  | st, q :: qs => ((F st q).1 ++ (runG F (F st q).2 qs).1, (runG F (F st q).2 qs).2)

/-- What is known after `u` has been consumed and `out` produced, of edits `es` of the whole text. -/
structure RmInvG (g : Char → α) (es : List Edit) (u out : List α) (st : RmState) : Prop where
  remove : 0 ≤ st.remove
  order : LeftToRight (st.pending.map Repl.edit)
  cur : st.pending ≠ [] → st.cur = u.length
  ahead : ∀ r ∈ st.pending, u.length + st.remove.toNat ≤ r.start.toNat
  same : ∀ v, spliceG g (u ++ v) 0 es = out ++ spliceG g (u ++ v) (u.length + st.remove.toNat) (st.pending.map Repl.edit)

theorem rmLoopG_inv (g : Char → α) (es : List Edit) : ∀ (rs : List Repl) (cur : Int) (u s out : List α),
    RmInvG g es u out ⟨cur, rs, 0⟩ →
    RmInvG g es (u ++ s) (out ++ (rmLoopG g cur s rs).1) (rmLoopG g cur s rs).2
  | [], cur, u, s, out, h => by
    refine ⟨by simp [rmLoopG], ⟨by simp [rmLoopG], by simp [rmLoopG]⟩, by simp [rmLoopG], by simp [rmLoopG], ?_⟩
    intro v
    have := h.same (s ++ v)
    simp only [rmLoopG, spliceG, List.map_nil, Int.toNat_zero, Nat.add_zero] at this ⊢
    rw [List.append_assoc, this, List.drop_left, List.append_assoc, ← List.append_assoc u,
      List.drop_left]
  | r :: rs, cur, u, s, out, h => by
    have hcur : cur = u.length := h.cur (by simp)
    have hah : u.length ≤ r.start.toNat := by simpa using h.ahead r (by simp)
    have hord := h.order
    simp only [List.map_cons] at hord
    have hle : r.start ≤ r.stop := hord.1 r.edit (by simp)
    have hnext : ∀ q ∈ rs, r.stop ≤ q.start := fun q hq =>
      (List.pairwise_cons.1 hord.2).1 q.edit (List.mem_map_of_mem hq)
    have hsame : ∀ w, spliceG g (u ++ w) 0 es = out ++ (w.take (r.start.toNat - u.length) ++
        (r.text.map g ++ spliceG g (u ++ w) r.stop.toNat (rs.map Repl.edit))) := by
      intro w
      have := h.same w
      simp only [List.map_cons, spliceG, Repl.edit, Int.toNat_zero, Nat.add_zero] at this
      rw [this, List.drop_take, List.drop_left]
      simp
    by_cases hs : r.start.toNat - u.length ≤ s.length
    · -- the start is reached
      have hstep : stepG (r.start - cur) s =
          .ok (s.take (r.start.toNat - u.length), s.drop (r.start.toNat - u.length)) := by
        unfold stepG
        subst hcur
        have : (r.start - (u.length : Int)).toNat = r.start.toNat - u.length := by omega
        split
        · have : r.start.toNat - u.length = 0 := by omega
          rw [this]; simp
        · rw [this, if_pos hs]
      have hpre : (s.take (r.start.toNat - u.length)).length = r.start.toNat - u.length := by
        rw [List.length_take]; omega
      have ht2 : ∀ v : List α, (s ++ v).take (r.start.toNat - u.length) = s.take (r.start.toNat - u.length) := by
        intro v; rw [List.take_append_of_le_length hs]
      have hcur' : cur + (s.take (r.start.toNat - u.length)).length = r.start.toNat := by
        rw [hpre]; omega
      by_cases hs2 : r.stop.toNat - r.start.toNat ≤ (s.drop (r.start.toNat - u.length)).length
      · have hstep2 : stepG (r.stop - (r.start.toNat : Int)) (s.drop (r.start.toNat - u.length)) =
            .ok ((s.drop (r.start.toNat - u.length)).take (r.stop.toNat - r.start.toNat),
              (s.drop (r.start.toNat - u.length)).drop (r.stop.toNat - r.start.toNat)) := by
          unfold stepG
          have : (r.stop - (r.start.toNat : Int)).toNat = r.stop.toNat - r.start.toNat := by omega
          split
          · have : r.stop.toNat - r.start.toNat = 0 := by omega
            rw [this]; simp
          · rw [this, if_pos hs2]
        have hlen : ((s.drop (r.start.toNat - u.length)).take (r.stop.toNat - r.start.toNat)).length =
            r.stop.toNat - r.start.toNat := by rw [List.length_take]; omega
        have hred : rmLoopG g cur s (r :: rs) =
            (s.take (r.start.toNat - u.length) ++ r.text.map g ++ (rmLoopG g r.stop.toNat (s.drop (r.stop.toNat - u.length)) rs).1,
              (rmLoopG g r.stop.toNat (s.drop (r.stop.toNat - u.length)) rs).2) := by
          rw [rmLoopG, hstep]
          dsimp only
          rw [hcur', hstep2]
          dsimp only
          have e1 : (r.start.toNat : Int) + (((s.drop (r.start.toNat - u.length)).take
              (r.stop.toNat - r.start.toNat)).length : Nat) = (r.stop.toNat : Int) := by rw [hlen]; omega
          have e2 : (s.drop (r.start.toNat - u.length)).drop (r.stop.toNat - r.start.toNat) =
              s.drop (r.stop.toNat - u.length) := by
            rw [List.drop_drop]; congr 1; omega
          rw [e1, e2]
        have hlen' := hs2
        rw [List.length_drop] at hlen'
        have hul : (u ++ s.take (r.stop.toNat - u.length)).length = r.stop.toNat := by
          rw [List.length_append, List.length_take]; omega
        have hsplit : u ++ s = (u ++ s.take (r.stop.toNat - u.length)) ++ s.drop (r.stop.toNat - u.length) := by
          rw [List.append_assoc, List.take_append_drop]
        rw [hred, hsplit]
        dsimp only
        have := rmLoopG_inv g es rs r.stop.toNat (u ++ s.take (r.stop.toNat - u.length))
          (s.drop (r.stop.toNat - u.length)) (out ++ (s.take (r.start.toNat - u.length) ++ r.text.map g))
          ⟨by simp, hord.tail, fun _ => by rw [hul], by
            intro q hq
            have := hnext q hq
            rw [hul]
            simp only [Int.toNat_zero]
            omega, by
            intro v
            have hw := hsame (s.take (r.stop.toNat - u.length) ++ v)
            have hk : r.start.toNat - u.length ≤ (s.take (r.stop.toNat - u.length)).length := by
              rw [List.length_take]; omega
            rw [List.take_append_of_le_length hk, List.take_take,
              Nat.min_eq_left (by omega : r.start.toNat - u.length ≤ r.stop.toNat - u.length)] at hw
            simp only [Int.toNat_zero, Nat.add_zero]
            rw [hul, List.append_assoc, hw]
            simp only [List.append_assoc]⟩
        simpa [List.append_assoc] using this
      · -- the end lies behind the text
        have hlen' := hs2
        rw [List.length_drop] at hlen'
        have hstep2 : stepG (r.stop - (r.start.toNat : Int)) (s.drop (r.start.toNat - u.length)) =
            .error (r.stop - r.start.toNat - (s.drop (r.start.toNat - u.length)).length,
              (s.drop (r.start.toNat - u.length)).length) := by
          unfold stepG
          have : (r.stop - (r.start.toNat : Int)).toNat = r.stop.toNat - r.start.toNat := by omega
          rw [if_neg (by omega), this, if_neg hs2]
        have hred : rmLoopG g cur s (r :: rs) = (s.take (r.start.toNat - u.length) ++ r.text.map g,
            ⟨(u ++ s).length, rs, r.stop - (u ++ s).length⟩) := by
          rw [rmLoopG, hstep]
          dsimp only
          rw [hcur', hstep2]
          dsimp only
          congr 2
          · rw [List.length_drop, List.length_append]; omega
          · rw [List.length_drop, List.length_append]; omega
        rw [hred]
        rw [List.length_append]
        refine ⟨by dsimp only; omega, hord.tail, fun _ => by simp, ?_, ?_⟩
        · intro q hq
          have := hnext q hq
          dsimp only
          rw [List.length_append]
          omega
        · intro v
          have hw := hsame (s ++ v)
          rw [ht2] at hw
          dsimp only
          rw [List.append_assoc, hw]
          have : (u ++ s).length + (r.stop - (↑(u.length + s.length) : Int)).toNat = r.stop.toNat := by
            rw [List.length_append]; omega
          rw [this]
          simp only [List.append_assoc]
    · -- the start lies behind the text
      have hstep : stepG (r.start - cur) s = .error (r.start - cur - s.length, s.length) := by
        unfold stepG
        rw [if_neg (by omega), if_neg (by omega)]
      have hred : rmLoopG g cur s (r :: rs) = (s, ⟨(u ++ s).length, r :: rs, 0⟩) := by
        rw [rmLoopG, hstep]
        dsimp only
        congr 2
        rw [List.length_append]; omega
      rw [hred]
      refine ⟨by simp, h.order, fun _ => rfl, ?_, ?_⟩
      · intro q hq
        simp only [Int.toNat_zero, Nat.add_zero, List.length_append]
        rcases List.mem_cons.1 hq with rfl | hq
        · omega
        · have := hnext q hq
          omega
      · intro v
        have hw := hsame (s ++ v)
        simp only [Int.toNat_zero, Nat.add_zero, List.map_cons, spliceG, Repl.edit]
        rw [List.append_assoc, hw]
        have e : (s ++ v).take (r.start.toNat - u.length) =
            s ++ ((u ++ (s ++ v)).take r.start.toNat).drop (u ++ s).length := by
          rw [List.drop_take, ← List.append_assoc u, List.drop_left, List.take_append,
            List.take_of_length_le (by omega)]
          congr 2
          rw [List.length_append]; omega
        rw [e]
        simp

/-- One call of the rewriting function keeps what is known. -/
theorem rmMapG_inv {g : Char → α} {es : List Edit} {u out : List α} {st : RmState} (h : RmInvG g es u out st) (c : List α) :
    RmInvG g es (u ++ c) (out ++ (rmMapG g st c).1) (rmMapG g st c).2 := by
  unfold rmMapG
  split
  · rename_i hr
    unfold stepG
    rw [if_neg (by omega)]
    split
    · rename_i x skip rest e
      split at e
      · rename_i hle
        simp only [Except.ok.injEq, Prod.mk.injEq] at e
        obtain ⟨rfl, rfl⟩ := e
        have hl : (c.take st.remove.toNat).length = st.remove.toNat := by rw [List.length_take]; omega
        have := rmLoopG_inv g es st.pending (st.cur + (c.take st.remove.toNat).length) (u ++ c.take st.remove.toNat)
          (c.drop st.remove.toNat) out ⟨by simp, h.order, fun hp => by
            rw [h.cur hp, List.length_append]; rfl, fun q hq => by
            have := h.ahead q hq
            simp only [List.length_append, hl, Int.toNat_zero]; omega, fun v => by
            have := h.same (c.take st.remove.toNat ++ v)
            simp only [Int.toNat_zero, Nat.add_zero, List.length_append, hl]
            rw [List.append_assoc, this]⟩
        rwa [List.append_assoc, List.take_append_drop] at this
      · cases e
    · rename_i x n chars e
      split at e
      · cases e
      · rename_i hle
        simp only [Except.error.injEq, Prod.mk.injEq] at e
        obtain ⟨rfl, rfl⟩ := e
        refine ⟨by dsimp only; omega, h.order, fun hp => ?_, fun q hq => ?_, fun v => ?_⟩
        · dsimp only; rw [h.cur hp, List.length_append]; rfl
        · have := h.ahead q hq
          dsimp only
          rw [List.length_append]
          omega
        · have := h.same (c ++ v)
          dsimp only
          rw [List.append_assoc, this, List.length_append]
          have : u.length + c.length + (st.remove - c.length).toNat = u.length + st.remove.toNat := by omega
          rw [this]
          simp
  · rename_i hr
    have : st.remove = 0 := by have := h.remove; omega
    apply rmLoopG_inv
    rw [← this]
    exact h

theorem runSk_rm {g : Char → α} {es : List Edit} : ∀ (cs : List (List α)) {u out : List α} {st : RmState}, RmInvG g es u out st →
    RmInvG g es (u ++ cs.flatten) (out ++ (runG (rmMapG g) st cs).1) (runG (rmMapG g) st cs).2
  | [], u, out, st, h => by simpa [runG] using h
  | c :: cs, u, out, st, h => by
    have := runSk_rm cs (rmMapG_inv h c)
    simpa [runG, List.append_assoc] using this

theorem spliceG_behind (g : Char → α) (s : List α) : ∀ (rs : List Repl) (k : Nat), s.length ≤ k →
    (∀ r ∈ rs, s.length ≤ r.start.toNat) → LeftToRight (rs.map Repl.edit) →
    spliceG g s k (rs.map Repl.edit) = (rs.map fun r => r.text.map g).flatten
  | [], k, h, _, _ => by simp [spliceG, h]
  | r :: rs, k, h, hr, ho => by
    have h1 := hr r (by simp)
    have h2 : r.start ≤ r.stop := ho.1 r.edit (by simp)
    rw [List.map_cons, spliceG, spliceG_behind g s rs _ (by show s.length ≤ r.stop.toNat; omega)
      (fun q hq => hr q (by simp [hq])) ho.tail]
    have : (s.take r.start.toNat).drop k = [] := by
      rw [List.take_of_length_le h1, List.drop_of_length_le h]
    simp [Repl.edit, this]

/-! ## With sketches -/

/-- Characters of edits: nothing is said of them. -/
def blankMark (c : Char) : Char × Option (Option (Int × Nat)) := (c, none)

theorem stepChars_map (n : Int) (q : Sketch) : stepChars n (q.map Prod.fst) =
    (stepG n q).map fun p => (p.1.map Prod.fst, p.2.map Prod.fst) := by
  unfold stepChars stepG
  split
  · rfl
  · rw [List.length_map]
    split
    · simp [Except.map]
    · rfl

theorem rmLoop_map : ∀ (rs : List Repl) (cur : Int) (q : Sketch),
    rmLoop cur (q.map Prod.fst) rs =
      ((rmLoopG blankMark cur q rs).1.map Prod.fst, (rmLoopG blankMark cur q rs).2)
  | [], _, _ => rfl
  | r :: rs, cur, q => by
    rw [rmLoop, rmLoopG, stepChars_map]
    cases h1 : stepG (r.start - cur) q with
    | error e => rfl
    | ok a =>
      obtain ⟨pre, s1⟩ := a
      simp only [Except.map, List.length_map]
      rw [stepChars_map]
      cases h2 : stepG (r.stop - (cur + pre.length)) s1 with
      | error e => simp [Except.map, blankMark, Function.comp_def]
      | ok b =>
        obtain ⟨skip, s2⟩ := b
        simp only [Except.map, List.length_map]
        rw [rmLoop_map rs]
        simp [blankMark, Function.comp_def]

theorem rmMap_map (st : RmState) (q : Sketch) :
    rmMap st (q.map Prod.fst) = ((rmMapG blankMark st q).1.map Prod.fst, (rmMapG blankMark st q).2) := by
  unfold rmMap rmMapG
  split
  · rw [stepChars_map]
    cases h1 : stepG st.remove q with
    | error e => rfl
    | ok a =>
      obtain ⟨pre, s1⟩ := a
      simp only [Except.map, List.length_map]
      rw [rmLoop_map]
  · exact rmLoop_map _ _ _

theorem stepG_ok {n : Int} {s a b : List α} (h : stepG n s = .ok (a, b)) : s = a ++ b := by
  unfold stepG at h
  split at h
  · cases h; rfl
  · split at h
    · cases h; simp
    · cases h

theorem rmLoopG_says : ∀ (rs : List Repl) (cur : Int) (q : Sketch), ∀ k ∈ (rmLoopG blankMark cur q rs).1,
    k.2 = none ∨ k ∈ q
  | [], _, _, k, hk => .inr hk
  | r :: rs, cur, q, k, hk => by
    have htext : ∀ {k}, k ∈ r.text.map blankMark → k.2 = none := by
      intro k hk
      obtain ⟨c, _, rfl⟩ := List.mem_map.1 hk
      rfl
    rw [rmLoopG] at hk
    cases h1 : stepG (r.start - cur) q with
    | error e => rw [h1] at hk; exact .inr hk
    | ok a =>
      obtain ⟨pre, s1⟩ := a
      rw [h1] at hk
      dsimp only at hk
      have e1 := stepG_ok h1
      cases h2 : stepG (r.stop - (cur + pre.length)) s1 with
      | error e =>
        rw [h2] at hk
        rcases List.mem_append.1 hk with hk | hk
        · exact .inr (by rw [e1]; simp [hk])
        · exact .inl (htext hk)
      | ok b =>
        obtain ⟨skip, s2⟩ := b
        rw [h2] at hk
        have e2 := stepG_ok h2
        rcases List.mem_append.1 hk with hk | hk
        · rcases List.mem_append.1 hk with hk | hk
          · exact .inr (by rw [e1]; simp [hk])
          · exact .inl (htext hk)
        · rcases rmLoopG_says rs _ s2 k hk with h | h
          · exact .inl h
          · exact .inr (by rw [e1, e2]; simp [h])

theorem rmMapG_says (st : RmState) (q : Sketch) : ∀ k ∈ (rmMapG blankMark st q).1, k.2 = none ∨ k ∈ q := by
  intro k hk
  unfold rmMapG at hk
  split at hk
  · cases h1 : stepG st.remove q with
    | error e => rw [h1] at hk; cases hk
    | ok a =>
      obtain ⟨pre, s1⟩ := a
      rw [h1] at hk
      rcases rmLoopG_says _ _ s1 k hk with h | h
      · exact .inl h
      · exact .inr (by rw [stepG_ok h1]; simp [h])
  · exact rmLoopG_says _ _ _ k hk

theorem LateFree.append {a b : Sketch} (ha : LateFree a) (hb : LateFree b)
    (h : '\n' ∈ a.map Prod.fst → ∀ k ∈ b, k.2 = none) : LateFree (a ++ b) := by
  intro x e y hx k hk
  rcases List.append_eq_append_iff.1 hx with ⟨t, rfl, hB⟩ | ⟨t, rfl, hB⟩
  · exact hb t e y hB k hk
  · cases t with
    | nil => exact hb [] e y (by simpa using hB.symm) k hk
    | cons z t =>
      simp only [List.cons_append, List.cons.injEq] at hB
      obtain ⟨rfl, rfl⟩ := hB
      rcases List.mem_append.1 hk with hk | hk
      · exact ha x e t rfl k hk
      · exact h (by simp) k hk

/-- No text put in holds a newline. -/
def RmState.Flat (st : RmState) : Prop := ∀ r ∈ st.pending, '\n' ∉ r.text

theorem tidy_tail {a b : Str} (h : '\n' ∉ (a ++ b).dropLast) : '\n' ∉ b.dropLast ∧ ('\n' ∈ a → b = []) := by
  cases b with
  | nil => simp
  | cons c b =>
    rw [List.dropLast_append_of_ne_nil (by simp), List.mem_append, not_or] at h
    exact ⟨h.2, fun ha => absurd ha h.1⟩

theorem tidy_head {a b : Str} (h : '\n' ∉ (a ++ b).dropLast) : '\n' ∉ a.dropLast := by
  intro hm
  apply h
  cases b with
  | nil => simpa using hm
  | cons c b =>
    rw [List.dropLast_append_of_ne_nil (by simp), List.mem_append]
    exact .inl ((List.dropLast_sublist a).mem hm)

theorem lateFree_of_tidy {q : Sketch} (h : '\n' ∉ (q.map Prod.fst).dropLast) : LateFree q := by
  intro x e y hq k hk
  exfalso
  apply h
  have hne : y ≠ [] := by rintro rfl; cases hk
  rw [hq, List.map_append, List.map_cons, List.dropLast_append_of_ne_nil (by simp),
    List.dropLast_cons_of_ne_nil (by simpa using hne)]
  simp

theorem rmLoopG_late : ∀ (rs : List Repl) (cur : Int) (q : Sketch), (∀ r ∈ rs, '\n' ∉ r.text) →
    '\n' ∉ (q.map Prod.fst).dropLast → LateFree (rmLoopG blankMark cur q rs).1
  | [], _, _, _, hq => lateFree_of_tidy hq
  | r :: rs, cur, q, hr, hq => by
    have htext : LateFree (r.text.map blankMark) := by
      apply lateFree_of_tidy
      intro hm
      have := (List.dropLast_sublist _).mem hm
      simp only [List.map_map, Function.comp_def, blankMark, List.map_id'] at this
      exact hr r (by simp) this
    have hnone : ∀ k ∈ r.text.map blankMark, k.2 = none := by
      intro k hk
      obtain ⟨c, _, rfl⟩ := List.mem_map.1 hk
      rfl
    rw [rmLoopG]
    cases h1 : stepG (r.start - cur) q with
    | error e => exact lateFree_of_tidy hq
    | ok a =>
      obtain ⟨pre, s1⟩ := a
      have e1 := stepG_ok h1
      rw [e1, List.map_append] at hq
      have hp := lateFree_of_tidy (tidy_head hq)
      have hs1 := tidy_tail hq
      dsimp only
      have hpt : LateFree (pre ++ r.text.map blankMark) := hp.append htext (fun _ => hnone)
      cases h2 : stepG (r.stop - (cur + pre.length)) s1 with
      | error e => exact hpt
      | ok b =>
        obtain ⟨skip, s2⟩ := b
        have e2 := stepG_ok h2
        rw [e2, List.map_append] at hs1
        refine hpt.append (rmLoopG_late rs _ s2 (fun q hq => hr q (by simp [hq])) (tidy_tail hs1.1).1) ?_
        intro hm k hk
        have hn : '\n' ∈ pre.map Prod.fst := by
          rw [List.map_append] at hm
          rcases List.mem_append.1 hm with hm | hm
          · exact hm
          · simp only [List.map_map, Function.comp_def, blankMark, List.map_id'] at hm
            exact absurd hm (hr r (by simp))
        have := hs1.2 hn
        simp only [List.append_eq_nil_iff, List.map_eq_nil_iff] at this
        rcases rmLoopG_says rs _ s2 k hk with h | h
        · exact h
        · rw [this.2] at h; cases h

theorem rmMapG_late {st : RmState} (hI : st.Flat) {q : Sketch} (hq : '\n' ∉ (q.map Prod.fst).dropLast) :
    LateFree (rmMapG blankMark st q).1 := by
  unfold rmMapG
  split
  · cases h1 : stepG st.remove q with
    | error e => intro x e y hx; simp at hx
    | ok a =>
      obtain ⟨pre, s1⟩ := a
      rw [stepG_ok h1, List.map_append] at hq
      exact rmLoopG_late _ _ s1 hI (tidy_tail hq).1
  · exact rmLoopG_late _ _ q hI hq

theorem rmLoopG_flat : ∀ (rs : List Repl) (cur : Int) (q : Sketch), (∀ r ∈ rs, '\n' ∉ r.text) →
    (rmLoopG blankMark cur q rs).2.Flat
  | [], _, _, _ => by intro r hr; cases hr
  | r :: rs, cur, q, h => by
    have ht : ∀ r ∈ rs, '\n' ∉ r.text := fun x hx => h x (by simp [hx])
    rw [rmLoopG]
    cases h1 : stepG (r.start - cur) q with
    | error e => exact h
    | ok a =>
      obtain ⟨pre, s1⟩ := a
      dsimp only
      cases h2 : stepG (r.stop - (cur + pre.length)) s1 with
      | error e => exact ht
      | ok b => exact rmLoopG_flat rs _ _ ht

theorem rmMapG_flat {st : RmState} (hI : st.Flat) (q : Sketch) : (rmMapG blankMark st q).2.Flat := by
  unfold rmMapG
  split
  · cases h1 : stepG st.remove q with
    | error e => exact hI
    | ok a => exact rmLoopG_flat _ _ _ hI
  · exact rmLoopG_flat _ _ _ hI

theorem rm_lifts : Lifts RmState.Flat rmMap (rmMapG blankMark) where
  keeps st q h := rmMapG_flat h q
  text st q := by rw [rmMap_map]
  state st q := by rw [rmMap_map]
  says st q k hk := (rmMapG_says st q k hk).imp id fun h => ⟨k, h, rfl⟩
  late st q h hq := rmMapG_late h hq

theorem runSk_eq {σ : Type} (F : σ → Sketch → Sketch × σ) : ∀ (qs : List Sketch) (st : σ),
    runSk F st qs = runG F st qs
  | [], _ => rfl
  | q :: qs, st => by rw [runSk, runG, runSk_eq F qs]

end WS
