import Verif.Props.C14
/-! # C79 Maps that are not well-formed, read into list maps -/

namespace WS
open Spec

/-- `s` begins with the numbers `xs`: as many as it has, but no more than `k` are looked at. -/
inductive Spec.Begins : Nat → List Char → List Int → Prop where
  | enough (s : List Char) : Begins 0 s []
  | done (k : Nat) : Begins k [] []
  | more {k : Nat} {x s : List Char} {v : Int} {vs : List Int} : fields x = some [v] → Begins k s vs →
      Begins (k + 1) (x ++ s) (v :: vs)

/-- One by one. -/
inductive Spec.Each {α β : Type} (R : α → β → Prop) : List α → List β → Prop where
  | nil : Each R [] []
  | cons {a : α} {b : β} {l : List α} {r : List β} : R a b → Each R l r → Each R (a :: l) (b :: r)

/-- The numbers at the beginnings of the segments of the first `k` lines of a mappings string. -/
def Spec.Numbered (k : Nat) (mappings : List Char) (n : List (List (List Int))) : Prop :=
  Each (fun m xss => Each (Begins 3) (cut ',' m) xss) ((cut ';' mappings).take k) n

/-- Index of the source and line, summed up: a segment's second and third number are added to them, if it has them. -/
def Spec.summed (a : Int × Int) : List Int → Int × Int
  | _ :: d :: e :: _ => (a.1 + d, a.2 + e)
  | [_, d] => (a.1 + d, a.2)
  | _ => a

/-- The sums at the first segment of a line with more than one number. -/
def Spec.firstSums : Int × Int → List (List Int) → Option (Int × Int)
  | _, [] => none
  | a, xs :: xss => if 2 ≤ xs.length then some (summed a xs) else firstSums a xss

/-- The sums at these segments, line by line. Sums go on from line to line. -/
def Spec.lineSums : Int × Int → List (List (List Int)) → List (Option (Int × Int))
  | _, [] => []
  | a, l :: ls => firstSums a l :: lineSums (l.foldl summed a) ls

/-- What 32 bits hold of a number. -/
def Spec.low (i : Int) : Nat := (i % 2 ^ 32).toNat

/-- Source and line of line `i` of a map that may not be well-formed. Without such a source it is -1. -/
def Spec.looseFirst (sources : List Int) (n : List (List (List Int))) (i : Nat) : Option (Int × Nat) :=
  ((lineSums (0, 1) n)[i - 1]?.join).map fun a => (sources[low a.1]?.getD (-1), low a.2)

theorem toUsize_low (i : Int) : toUsize i = low i := rfl

theorem low_low (d s : Int) : low (d + low s) = low (s + d) := by
  unfold low; omega

/-- The sums in the state of the reader. -/
def put (st : LfState) (a : Int × Int) : LfState := { st with curLine := a.2, curSource := low a.1 }

theorem lfAddSource_put (st : LfState) (a : Int × Int) (line : Str) (s o : Option Int) (l : Nat) :
    put (lfAddSource st line s o l) a = lfAddSource (put st a) line s o l := by
  unfold lfAddSource put
  dsimp only
  split
  · split <;> rfl
  · rfl

theorem lfAddCode_put (st : LfState) (a : Int × Int) (code : Str) :
    put (lfAddCode st code) a = lfAddCode (put st a) code := by
  unfold lfAddCode put
  dsimp only
  split
  · rfl
  · split <;> rfl
  · rfl

theorem put_put (st : LfState) (a b : Int × Int) : put (put st a) b = put st b := rfl

theorem segEffect_put {sources contents : List Int} {line : Str} (st : LfState) (a : Int × Int) (xs : List Int) (added : Bool) :
    segEffect sources contents line xs added (put st a) =
      if 2 ≤ xs.length ∧ added = false then
        (true, lfAddSource (put st (summed a xs)) line sources[low (summed a xs).1]? contents[low (summed a xs).1]?
          (low (summed a xs).2))
      else (added, put st (summed a xs)) := by
  match xs with
  | [] => simp [segEffect, summed]
  | [_] => simp [segEffect, summed]
  | [c, d] =>
    have e : toUsize (d + (low a.1 : Int)) = low (a.1 + d) := low_low d a.1
    cases added <;> simp [segEffect, summed, put, e, toUsize_low]
  | c :: d :: f :: r =>
    have e : toUsize (d + (low a.1 : Int)) = low (a.1 + d) := low_low d a.1
    cases added <;> simp [segEffect, summed, put, e, toUsize_low, Int.add_comm f]

theorem segsEffect_put {sources contents : List Int} {line : Str} : ∀ (xss : List (List Int)) (st : LfState)
    (a : Int × Int) (added : Bool), segsEffect sources contents line xss added (put st a) =
      match (if added then none else firstSums a xss) with
      | none => (added, put st (xss.foldl summed a))
      | some o => (true, lfAddSource (put st (xss.foldl summed a)) line sources[low o.1]? contents[low o.1]? (low o.2))
  | [], st, a, added => by cases added <;> rfl
  | xs :: xss, st, a, added => by
    rw [segsEffect, segEffect_put]
    cases added with
    | true =>
      simp only [Bool.true_eq_false, and_false, if_false, if_true, List.foldl_cons]
      rw [segsEffect_put xss]
      simp
    | false =>
      simp only [and_true, Bool.false_eq_true, if_false, List.foldl_cons, firstSums]
      by_cases h : 2 ≤ xs.length
      · rw [if_pos h, if_pos h]
        dsimp only
        rw [← lfAddSource_put, segsEffect_put xss]
        simp only [if_true]
        rw [lfAddSource_put]
      · rw [if_neg h, if_neg h]
        have e : summed a xs = a := by
          match xs with
          | [] | [_] => rfl
          | _ :: _ :: _ => simp at h
        dsimp only
        rw [segsEffect_put xss, e]
        simp

/-! ## Segments of any characters -/

theorem naturals_one {c : Char} {d : Nat} (hc : digit c = some d) : d < 32 → naturals [c] = some [d] := by
  intro h
  simp [naturals, hc, h]

theorem vlqDecodeGo_some : ∀ (s : Str) (acc mul : Nat) {v : Int} {r : Str}, vlqDecodeGo acc mul s = some (v, r) →
    ∃ x n, s = x ++ r ∧ naturals x = some [n] ∧ v = signed (acc + n * mul)
  | [], _, _, _, _, h => by cases h
  | c :: s, acc, mul, v, r, h => by
    rw [vlqDecodeGo, ← digit_eq] at h
    cases hd : digit c with
    | none => rw [hd] at h; cases h
    | some d =>
      rw [hd] at h
      dsimp only at h
      split at h
      · rename_i hlt
        cases h
        exact ⟨[c], d, rfl, naturals_one hd hlt, (signed_eq _).symm⟩
      · rename_i hlt
        obtain ⟨x, n, h1, h2, h3⟩ := vlqDecodeGo_some s _ _ h
        refine ⟨c :: x, d - 32 + 32 * n, by rw [h1]; rfl, ?_, ?_⟩
        · simp only [naturals, hd, h2, hlt, if_false]
        · rw [h3]; congr 1
          rw [Nat.add_mul, ← Nat.add_assoc]
          congr 1
          rw [Nat.mul_comm 32 n, Nat.mul_assoc, Nat.mul_comm 32 mul]

/-- Decoding takes one number. -/
theorem vlqDecode_iff {s r : Str} {v : Int} : vlqDecode s = some (v, r) ↔ ∃ x, s = x ++ r ∧ fields x = some [v] := by
  constructor
  · intro h
    obtain ⟨x, n, h1, h2, h3⟩ := vlqDecodeGo_some s 0 1 h
    exact ⟨x, h1, by simp [fields, h2, h3]⟩
  · rintro ⟨x, rfl, hx⟩
    obtain ⟨rest, h1, _, _, h4⟩ := vlqDecode_fields hx
    rw [h4 r, fields_eq_nil h1]
    rfl

theorem vlqDecodeGo_comma {r : Str} (hr : AtComma r) : ∀ (x : Str) (acc mul : Nat),
    vlqDecodeGo acc mul (x ++ r) = (vlqDecodeGo acc mul x).map fun p => (p.1, p.2 ++ r)
  | [], acc, mul => by
    cases r with
    | nil => rfl
    | cons c r =>
      simp only [AtComma] at hr
      subst hr
      have : b64Val ',' = none := by decide
      simp [vlqDecodeGo, this]
  | c :: x, acc, mul => by
    rw [List.cons_append, vlqDecodeGo, vlqDecodeGo]
    cases b64Val c with
    | none => rfl
    | some d =>
      dsimp only
      split
      · rfl
      · exact vlqDecodeGo_comma hr x _ _

theorem vlqDecode_comma {r : Str} (hr : AtComma r) (x : Str) :
    vlqDecode (x ++ r) = (vlqDecode x).map fun p => (p.1, p.2 ++ r) := vlqDecodeGo_comma hr x 0 1

/-- The numbers at the beginning, by decoding. -/
def lead : Nat → Str → Option (List Int)
  | 0, _ => some []
  | _ + 1, [] => some []
  | k + 1, c :: s =>
    match vlqDecode (c :: s) with
    | none => none
    | some (v, r) => (lead k r).map (v :: ·)

theorem lead_iff : ∀ (k : Nat) (s : Str) (xs : List Int), lead k s = some xs ↔ Begins k s xs
  | 0, s, xs => by
    simp only [lead, Option.some.injEq]
    refine ⟨fun h => h ▸ .enough s, fun h => ?_⟩
    cases h <;> rfl
  | k + 1, [], xs => by
    simp only [lead, Option.some.injEq]
    refine ⟨fun h => h ▸ .done _, fun h => ?_⟩
    generalize hk : k + 1 = k' at h
    generalize hs : ([] : Str) = s at h
    cases h with
    | enough => rfl
    | done => rfl
    | more hx _ =>
      rename_i k'' x s' v vs _
      have : x = [] := by cases x with
        | nil => rfl
        | cons c x => cases hs
      subst this
      cases hx
  | k + 1, c :: s, xs => by
    rw [lead]
    constructor
    · intro h
      split at h
      · cases h
      · rename_i v r e
        obtain ⟨x, h1, h2⟩ := vlqDecode_iff.1 e
        rw [Option.map_eq_some_iff] at h
        obtain ⟨vs, h3, rfl⟩ := h
        rw [h1]
        exact .more h2 ((lead_iff k r vs).1 h3)
    · intro h
      generalize hk : k + 1 = k' at h
      generalize hs : c :: s = s' at h
      cases h with
      | enough => cases hk
      | done => cases hs
      | more hx hr =>
        rename_i k'' x r v vs
        cases hk
        rw [vlqDecode_iff.2 ⟨x, rfl, hx⟩]
        dsimp only
        rw [(lead_iff k r vs).2 hr]
        rfl

theorem decode_suffix {x r : Str} {v : Int} (h : vlqDecode x = some (v, r)) (hx : ',' ∉ x) : ',' ∉ r := by
  obtain ⟨y, rfl, _⟩ := vlqDecode_iff.1 h
  exact fun hr => hx (List.mem_append_right _ hr)

/-- One segment. -/
theorem lfSegment_any {sources contents : List Int} {line : Str} {c : Char} {t r : Str} (hx : ',' ∉ c :: t)
    (hr : AtComma r) (added : Bool) (st : LfState) :
    lfSegment sources contents line added st (c :: t ++ r) =
      match lead 3 (c :: t) with
      | none => .error .vlq
      | some xs => .ok (if xs.length ≤ 1 then r.tail else r, segEffect sources contents line xs added st) := by
  have hc : c ≠ ',' := fun h => hx (by simp [h])
  unfold lfSegment
  rw [if_pos (by simpa using hc), vlqDecode_comma hr, lead]
  cases d1 : vlqDecode (c :: t) with
  | none => rfl
  | some p =>
    obtain ⟨v1, x1⟩ := p
    have hx1 := decode_suffix d1 hx
    dsimp only [Option.map_some]
    cases x1 with
    | nil =>
      simp only [lead, List.nil_append, Option.map_some, List.length_singleton, Nat.le_refl, if_true, segEffect]
      cases r with
      | nil => rfl
      | cons c r => simp only [AtComma] at hr; subst hr; simp
    | cons c1 t1 =>
      have hc1 : c1 ≠ ',' := fun h => hx1 (by simp [h])
      simp only [List.cons_append, if_neg hc1]
      have d2' := vlqDecode_comma hr (c1 :: t1)
      rw [List.cons_append] at d2'
      rw [d2', lead]
      cases d2 : vlqDecode (c1 :: t1) with
      | none => rfl
      | some p =>
        obtain ⟨v2, x2⟩ := p
        have hx2 := decode_suffix d2 hx1
        dsimp only [Option.map_some]
        cases x2 with
        | nil =>
          have hno : ¬ (r ≠ [] ∧ r.head? ≠ some ',') := by
            cases r with
            | nil => simp
            | cons c r => simp only [AtComma] at hr; subst hr; simp
          rw [List.nil_append, if_neg hno]
          dsimp only
          have := skipToComma_all (x := []) (by simp) hr
          rw [List.nil_append] at this
          rw [this]
          simp only [lead, Option.map_some, List.length_cons, List.length_nil, segEffect]
          cases added <;> rfl
        | cons c2 t2 =>
          have hc2 : c2 ≠ ',' := fun h => hx2 (by simp [h])
          rw [if_pos (by simpa using hc2), vlqDecode_comma hr, lead]
          cases d3 : vlqDecode (c2 :: t2) with
          | none => rfl
          | some p =>
            obtain ⟨v3, x3⟩ := p
            dsimp only [Option.map_some]
            rw [skipToComma_all (decode_suffix d3 hx2) hr]
            simp only [lead, Option.map_some, List.length_cons, List.length_nil, segEffect]
            cases added <;> rfl

/-- All of them, or none. -/
def leads : List Str → Option (List (List Int))
  | [] => some []
  | x :: xs =>
    match lead 3 x with
    | none => none
    | some y => (leads xs).map (y :: ·)

theorem leads_iff : ∀ (l : List Str) (r : List (List Int)), leads l = some r ↔ Each (Begins 3) l r
  | [], r => by
    simp only [leads, Option.some.injEq]
    exact ⟨(fun h => h ▸ .nil), (fun h => by cases h; rfl)⟩
  | x :: xs, r => by
    rw [leads]
    constructor
    · intro h
      split at h
      · cases h
      · rename_i y e
        rw [Option.map_eq_some_iff] at h
        obtain ⟨ys, h1, rfl⟩ := h
        exact .cons ((lead_iff _ _ _).1 e) ((leads_iff xs ys).1 h1)
    · intro h
      cases h with
      | cons h1 h2 => rw [(lead_iff _ _ _).2 h1, (leads_iff _ _).2 h2]; rfl

theorem lfSegments_any {sources contents : List Int} {line : Str} : ∀ (x : Str) (fuel : Nat) (added : Bool)
    (st : LfState), x.length ≤ fuel → lfSegments sources contents line fuel added st x =
      match leads (cut ',' x) with
      | none => .error .vlq
      | some xss => .ok (segsEffect sources contents line xss added st) := by
  intro x
  induction x using piece_induction (p := ',') with
  | base x hx =>
    intro fuel added st hf
    rw [cut_of_not_mem hx]
    cases x with
    | nil => rw [lfSegments_nil]; rfl
    | cons c x =>
      obtain ⟨f, rfl⟩ : ∃ f, fuel = f + 1 := ⟨fuel - 1, by simp at hf; omega⟩
      have := lfSegment_any (sources := sources) (contents := contents) (line := line) (r := []) hx trivial added st
      rw [List.append_nil] at this
      rw [lfSegments, this, leads]
      cases lead 3 (c :: x) with
      | none => rfl
      | some xs =>
        have e : (if xs.length ≤ 1 then ([] : Str).tail else []) = [] := by split <;> rfl
        dsimp only
        rw [e, lfSegments_nil]; rfl
  | step y r hy ih =>
    intro fuel added st hf
    rw [cut_append_sep hy, leads]
    rw [List.length_append, List.length_cons] at hf
    cases y with
    | nil =>
      obtain ⟨f, rfl⟩ : ∃ f, fuel = f + 1 := ⟨fuel - 1, by omega⟩
      rw [List.nil_append, lfSegments_comma, ih f added st (by simp at hf; omega)]
      simp only [lead]
      cases leads (cut ',' r) <;> rfl
    | cons c y =>
      rw [List.length_cons] at hf
      obtain ⟨f, rfl⟩ : ∃ f, fuel = f + 1 + 1 := ⟨fuel - 2, by omega⟩
      have := lfSegment_any (sources := sources) (contents := contents) (line := line) (r := ',' :: r) hy rfl added st
      rw [List.cons_append] at this ⊢
      rw [lfSegments, this]
      cases lead 3 (c :: y) with
      | none => rfl
      | some xs =>
        dsimp only
        by_cases hz : xs.length ≤ 1
        · simp only [hz, if_true, List.tail_cons]
          rw [ih (f + 1) _ _ (by omega)]
          cases leads (cut ',' r) <;> rfl
        · simp only [hz, if_false]
          rw [lfSegments_comma, ih f _ _ (by omega)]
          cases leads (cut ',' r) <;> rfl

/-- One line, whatever its mappings. -/
theorem lfLine_any {sources contents : List Int} (st : LfState) (line mp : Str) :
    lfLine sources contents st line mp =
      match leads (cut ',' mp) with
      | none => .error .vlq
      | some xss => .ok (if (segsEffect sources contents line xss false st).1 then
          (segsEffect sources contents line xss false st).2
        else lfAddCode (segsEffect sources contents line xss false st).2 line) := by
  unfold lfLine
  by_cases hm : mp = []
  · subst hm; rfl
  · have hme : mp.isEmpty = false := by simpa using hm
    rw [hme, lfSegments_any mp _ _ _ (Nat.le_refl _)]
    cases leads (cut ',' mp) <;> rfl

/-- One line. -/
theorem line_loose {sources contents : List Int} {mp : Str} {xss : List (List Int)}
    (hx : leads (cut ',' mp) = some xss) {from_ : Nat} {st : LfState} {a : Int × Int}
    (hfrom : ∀ o, firstSums a xss = some o → from_ ≤ low o.2)
    {prev : Option (Int × Nat)} (hl : LastSays st prev) (hrd : ∀ n ∈ st.rev, n.ReadFrom from_) {l : Str}
    (h : '\n' ∉ l.dropLast) (at_ : Option (Int × Nat))
    (hat : at_ = (((firstSums a xss).map fun o => (sources[low o.1]?.getD (-1), low o.2)).or
      (if isBlank l then prev else none))) :
    ∃ st', lfLine sources contents (put st a) l mp = .ok (put st' (xss.foldl summed a)) ∧
      st'.marks = st.marks ++ l.map (fun c => (c, at_)) ∧ (∀ n ∈ st'.rev, n.ReadFrom from_) ∧
      (l.count '\n' = 1 → LastSays st' (at_.map fun x => (x.1, x.2 + 1))) := by
  have plain : firstSums a xss = none → ∃ st', lfAddCode (put st (xss.foldl summed a)) l = put st' (xss.foldl summed a) ∧
      st'.marks = st.marks ++ l.map (fun c => (c, at_)) ∧ (∀ n ∈ st'.rev, n.ReadFrom from_) ∧
      (l.count '\n' = 1 → LastSays st' (at_.map fun x => (x.1, x.2 + 1))) := by
    intro hf
    rw [hf] at hat
    simp only [Option.map_none, Option.none_or] at hat
    subst hat
    obtain ⟨h1, h2, h3⟩ := addCode_step hl hrd h
    exact ⟨lfAddCode st l, (lfAddCode_put st _ l).symm, h1, h2, h3⟩
  rw [lfLine_any, hx]
  dsimp only
  rw [segsEffect_put]
  simp only [Bool.false_eq_true, if_false]
  cases hf : firstSums a xss with
  | none =>
    simp only [Bool.false_eq_true, if_false]
    obtain ⟨st', e, r⟩ := plain hf
    exact ⟨st', by rw [e], r⟩
  | some o =>
    rw [hf] at hat
    simp only [Option.map_some, Option.some_or] at hat
    subst hat
    simp only [if_true]
    obtain ⟨h1, h2, h3⟩ := addSource_step hl hrd h sources[low o.1]? contents[low o.1]? (hfrom o hf)
    exact ⟨_, by rw [← lfAddSource_put], h1, h2, h3⟩

/-- All lines. -/
theorem lines_loose {sources contents : List Int} {from_ : Nat} : ∀ (ms : List Str) (n : List (List (List Int))) (ls : List Str)
    (st : LfState) (a : Int × Int) (prev : Option (Int × Nat)) (i : Nat) (org : Nat → Option (Int × Nat)),
    Each (fun m xss => leads (cut ',' m) = some xss) (ms.take ls.length) n →
    (∀ j, org (i + j) = ((lineSums a n)[j]?.join).map fun o => (sources[low o.1]?.getD (-1), low o.2)) →
    (∀ o, some o ∈ lineSums a n → from_ ≤ low o.2) → CodeLines ls → LastSays st prev →
    (∀ n ∈ st.rev, n.ReadFrom from_) →
    ∃ st' rest, lfLines sources contents (put st a) ls ms = .ok (st', rest) ∧
      (lfRest st' rest).marks = st.marks ++ follow isBlank org i prev ls ∧
      ∀ n ∈ (lfRest st' rest).rev, n.ReadFrom from_
  | [], n, ls, st, a, prev, i, org, hn, ho, hf, hls, hl, hrd => by
    rw [List.take_nil] at hn
    cases hn with
    | nil =>
      have e : lfLines sources contents (put st a) ls [] = .ok (put st a, ls) := by cases ls <;> rfl
      obtain ⟨h1, h2⟩ := rest_marks ls (put st a) prev i hls hl hrd
      refine ⟨_, ls, e, ?_, h2⟩
      rw [h1, follow_congr (o := fun _ => none) (o' := org) ls i prev (fun j hj => by
        obtain ⟨d, rfl⟩ := Nat.exists_eq_add_of_le hj
        rw [ho d]; simp [lineSums])]
      rfl
  | m :: ms, n, [], st, a, prev, i, org, hn, ho, hf, hls, hl, hrd =>
    ⟨put st a, [], lfLines_nil _ _, by simp [lfRest, follow, put, LfState.marks], hrd⟩
  | m :: ms, n, l :: ls, st, a, prev, i, org, hn, ho, hf, hls, hl, hrd => by
    rw [List.length_cons, List.take_succ_cons] at hn
    cases hn with
    | cons hn1 hn2 =>
      rename_i xss n
      have h0 : org i = (firstSums a xss).map fun o => (sources[low o.1]?.getD (-1), low o.2) := by
        have := ho 0
        simpa [lineSums] using this
      obtain ⟨st1, s1, s2, s3, s4⟩ := line_loose (sources := sources) (contents := contents) hn1 (a := a)
        (fun o h => hf o (by simp [lineSums, h])) hl hrd hls.tidy _ rfl
      rw [← h0] at s2 s4
      simp only [follow]
      rw [lfLines, s1]
      dsimp only
      cases ls with
      | nil =>
        rw [lfLines_nil]
        exact ⟨_, [], rfl, by simpa [lfRest, follow, put, LfState.marks] using s2, s3⟩
      | cons l' ls =>
        obtain ⟨st', rest, t1, t2, t3⟩ := lines_loose ms n (l' :: ls) st1 (xss.foldl summed a) _ (i + 1) org hn2
          (fun j => by
            have := ho (j + 1)
            simp only [lineSums, List.getElem?_cons_succ] at this
            rw [← this]; congr 1; omega)
          (fun o h => hf o (by simp [lineSums, h])) hls.tail (s4 hls.count) s3
        exact ⟨st', rest, t1, by rw [t2, s2, List.append_assoc], t3⟩

theorem each_imp {α β : Type} {R S : α → β → Prop} (h : ∀ a b, R a b → S a b) {l : List α} {r : List β}
    (e : Each R l r) : Each S l r := by
  induction e with
  | nil => exact .nil
  | cons h1 _ ih => exact .cons (h _ _ h1) ih

theorem slmFromString_loose (from_ : Nat) (code : Str) (sources contents : List Int) (mappings : Str)
    (n : List (List (List Int))) (ls : List (List Char)) (hls : IsLines '\n' code ls)
    (hn : Numbered ls.length mappings n) (hf : ∀ o, some o ∈ lineSums (0, 1) n → from_ ≤ low o.2) :
    ∃ m, slmFromString code sources contents mappings = .ok m ∧
      piecesMarks (m.map LNode.piece) = follow isBlank (looseFirst sources n) 1 none ls ∧ ∀ n ∈ m, n.ReadFrom from_ := by
  have hls' : ls = splitKeep '\n' code := IsLines.unique '\n' code ls hls
  subst hls'
  have hn' : Each (fun m xss => leads (cut ',' m) = some xss) ((cut ';' mappings).take (splitKeep '\n' code).length) n :=
    each_imp (fun _ _ => (leads_iff _ _).2) hn
  rw [cut_eq] at hn'
  obtain ⟨st, rest, h1, h2, h3⟩ := lines_loose (sources := sources) (contents := contents) (from_ := from_) _ n
    (splitKeep '\n' code) { rev := [], curLine := 1, curSource := 0, nodeLine := 0 } (0, 1) none 1 (looseFirst sources n)
    hn' (fun j => by simp [looseFirst]) hf (codeLines_splitKeep code) rfl (by intro n hn; cases hn)
  have hm : slmFromString code sources contents mappings = .ok (lfRest st rest).rev.reverse := by
    have e : put { rev := [], curLine := 1, curSource := 0, nodeLine := 0 } (0, 1) =
      { rev := [], curLine := 1, curSource := 0, nodeLine := 0 } := rfl
    rw [e] at h1
    unfold slmFromString; rw [h1]
  refine ⟨_, hm, ?_, fun n hn => h3 n (List.mem_reverse.1 hn)⟩
  have e : LfState.marks { rev := [], curLine := 1, curSource := 0, nodeLine := 0 } = [] := rfl
  rw [e, List.nil_append] at h2
  exact h2

/-- C79, nodes: whatever numbers a map has, it is read, and every line goes with the sums at its first segment that has
more than one number, of which 32 bits count. -/
theorem C79_nodes (code : Str) (sources contents : List Int) (mappings : Str) (n : List (List (List Int)))
    (ls : List (List Char)) (hls : IsLines '\n' code ls) (hn : Numbered ls.length mappings n) :
    ∃ m, slmFromString code sources contents mappings = .ok m ∧
      piecesMarks (m.map LNode.piece) = follow isBlank (looseFirst sources n) 1 none ls := by
  obtain ⟨m, h1, h2, -⟩ := slmFromString_loose 0 code sources contents mappings n ls hls hn (fun _ _ => Nat.zero_le _)
  exact ⟨m, h1, h2⟩

theorem lfLines_reads {sources contents : List Int} : ∀ (ms ls : List Str) (st : LfState) {r : LfState × List Str},
    lfLines sources contents st ls ms = .ok r → ∃ n, Each (fun m xss => leads (cut ',' m) = some xss) (ms.take ls.length) n
  | [], ls, st, r, _ => ⟨[], by rw [List.take_nil]; exact .nil⟩
  | m :: ms, [], st, r, _ => ⟨[], .nil⟩
  | m :: ms, l :: ls, st, r, h => by
    rw [lfLines, lfLine_any] at h
    cases hm : leads (cut ',' m) with
    | none => rw [hm] at h; cases h
    | some xss =>
      rw [hm] at h
      obtain ⟨n, hn⟩ := lfLines_reads ms ls _ h
      exact ⟨xss :: n, .cons hm hn⟩

/-- C79: a map is read if and only if, in the lines that the code has, every segment begins with numbers as far as it is
looked at. -/
theorem C79_reads (code : Str) (sources contents : List Int) (mappings : Str) (ls : List (List Char))
    (hls : IsLines '\n' code ls) :
    (∃ m, slmFromString code sources contents mappings = .ok m) ↔ ∃ n, Numbered ls.length mappings n := by
  constructor
  · rintro ⟨m, h⟩
    have hls' : ls = splitKeep '\n' code := IsLines.unique '\n' code ls hls
    subst hls'
    unfold slmFromString at h
    split at h
    · cases h
    · rename_i st rest e
      obtain ⟨n, hn⟩ := lfLines_reads _ _ _ e
      rw [← cut_eq] at hn
      exact ⟨n, each_imp (fun _ _ => (leads_iff _ _).1) hn⟩
  · rintro ⟨n, hn⟩
    obtain ⟨m, h, -⟩ := C79_nodes code sources contents mappings n ls hls hn
    exact ⟨m, h⟩

/-- C79: and the rendered map says so, if no line is numbered 0. -/
theorem C79_rendered_partial (code : Str) (sources contents : List Int) (mappings : Str) (n : List (List (List Int)))
    (ls : List (List Char)) (hls : IsLines '\n' code ls) (hn : Numbered ls.length mappings n)
    (hf : ∀ o, some o ∈ lineSums (0, 1) n → low o.2 ≠ 0) :
    ∃ m, slmFromString code sources contents mappings = .ok m ∧
      ∀ file, ∃ qs, mapPoints (slmToStringWithSourceMap m file).map = some qs ∧
        AttributesB qs (1, 0) (follow isBlank (looseFirst sources n) 1 none ls) := by
  obtain ⟨m, hm, hmarks, h3⟩ := slmFromString_loose 1 code sources contents mappings n ls hls hn
    (fun o ho => Nat.pos_of_ne_zero (hf o ho))
  refine ⟨m, hm, fun file => ?_⟩
  have hls' : ls = splitKeep '\n' code := IsLines.unique '\n' code ls hls
  subst hls'
  have hbuilt := slmFromString_built hm
  have hok : ∀ n ∈ m, n.Ok := by
    intro n hn
    have hc := C42_lines (hbuilt n hn)
    have hr := h3 n hn
    cases n with
    | code s => trivial
    | source n => exact ⟨hc, fun _ => hr⟩
    | _ => exact hr.elim
  obtain ⟨qs, q1, q2⟩ := C12_lookup_partial _ file hok
  rw [hmarks, shown_follow _ _ _ (codeLines_splitKeep code)] at q2
  exact ⟨qs, q1, q2⟩

/-- Line 0 is written as line -1, counted from 0, which is no line. -/
theorem C79_not_general :
    leads (cut ',' "AADA".toList) = some [[0, 0, -1]] ∧
    (slmFromString "a".toList [5] [] "AADA".toList).toOption.map
      (fun m => ((slmToStringWithSourceMap m none).map.mappings, mapPoints (slmToStringWithSourceMap m none).map)) =
    some ("AADA".toList, none) := by
  decide +kernel

/-! Non-trivial case: source -1, back to 0, a segment of two numbers, one of six and one with other characters behind the
third number; the line after the last is not looked at. -/

/-- The mappings. -/
def c79Map : List Char := "A,ADAA;ACAA;AC;AACAAA,AA;AACA?!;;;??".toList

theorem c79_numbered : Numbered 7 c79Map [[[0], [0, -1, 0]], [[0, 1, 0]], [[0, 1]], [[0, 0, 1], [0, 0]], [[0, 0, 1]],
    [[]], [[]]] := by
  have e : (cut ';' c79Map).take 7 = ["A,ADAA".toList, "ACAA".toList, "AC".toList, "AACAAA,AA".toList, "AACA?!".toList,
    [], []] := by decide +kernel
  unfold Numbered
  rw [e]
  repeat' first
    | exact .nil
    | refine Each.cons ((leads_iff _ _).1 (by decide +kernel)) ?_

example : points [5, 6] [] c79Map = none := by decide +kernel
example : IsLines '\n' "a\nb\nc\nd\ne\n \nf".toList (splitKeep '\n' "a\nb\nc\nd\ne\n \nf".toList) ∧
    (splitKeep '\n' "a\nb\nc\nd\ne\n \nf".toList).length = 7 := ⟨isLines_splitKeep _ _, by decide +kernel⟩
example : lineSums (0, 1) [[[0], [0, -1, 0]], [[0, 1, 0]], [[0, 1]], [[0, 0, 1], [0, 0]], [[0, 0, 1]], [[]], [[]]] =
    [some (-1, 1), some (0, 1), some (1, 1), some (1, 2), some (1, 3), none, none] := by decide +kernel
example : (slmFromString "a\nb\nc\nd\ne\n \nf".toList [5, 6] [] c79Map).toOption.map (·.map LNode.piece) =
    some [.lines "a\n".toList (-1) 1, .lines "b\n".toList 5 1, .lines "c\nd\ne\n \n".toList 6 1, .plain "f".toList] := by
  decide +kernel
example : (slmFromString "a\nb\nc\nd\ne\n \nf\ng".toList [5, 6] [] c79Map).toOption.isNone := by decide +kernel

end WS
