import Verif.Props.C33
import Verif.Props.C79
/-! # C81 Column maps read from any mappings string -/

namespace WS
open Spec

/-- A number that 32 bits hold. -/
def Spec.In32 (i : Int) : Prop := 0 ≤ i ∧ i ≤ 4294967295

/-- All numbers of a segment are such numbers. -/
def Spec.Seg.In32 (g : Seg) : Prop :=
  Spec.In32 g.col ∧ ∀ si ol oc ni, g.orig = some (si, ol, oc, ni) →
    Spec.In32 si ∧ Spec.In32 ol ∧ Spec.In32 oc ∧ ∀ n, ni = some n → Spec.In32 n

/-- A separator or the end follows. -/
def Spec.Closed : List Char → Prop
  | [] => True
  | c :: _ => c = ',' ∨ c = ';'

/-- `t` is `s` with commas put in, each after the fifth number of a segment, or after the fifth since such a comma. -/
inductive Spec.Spread : List Char → List Char → Prop where
  | nil : Spread [] []
  | sep {c : Char} {s t : List Char} : c = ',' ∨ c = ';' → Spread s t → Spread (c :: s) (c :: t)
  | seg {x s t : List Char} {xs : List Int} : fields x = some xs → x ≠ [] → Closed s → Spread s t →
      Spread (x ++ s) (x ++ t)
  | five {x s t : List Char} {xs : List Int} : fields x = some xs → xs.length = 5 → Spread s t →
      Spread (x ++ s) (x ++ ',' :: t)

theorem closed_iff (s : Str) : Closed s ↔ AtSep s := by
  cases s <;> rfl

theorem Spec.Spread.closed {s t : Str} (h : Spread s t) (hs : Closed s) : Closed t := by
  cases h with
  | nil => trivial
  | sep hc _ => exact hc
  | @seg x s t xs hx hne _ _ =>
    cases x with
    | nil => exact absurd rfl hne
    | cons c x => exact hs
  | @five x s t xs hx hl _ =>
    cases x with
    | nil => cases hx; cases hl
    | cons c x => exact hs

/-- Commas need not be put in twice. -/
theorem Spec.Spread.again {s t : Str} (h : Spread s t) : Spread t t := by
  induction h with
  | nil => exact .nil
  | sep hc _ ih => exact .sep hc ih
  | seg hx hne hs h ih => exact .seg hx hne (h.closed hs) ih
  | @five x s t xs hx hl _ ih =>
    refine .seg hx ?_ (.inl rfl) (.sep (.inl rfl) ih)
    rintro rfl
    cases hx; cases hl

theorem naturals_append : ∀ {x : Str} {xs : List Nat} (y : Str), naturals x = some xs →
    naturals (x ++ y) = (naturals y).map (xs ++ ·)
  | [], xs, y, h => by
    cases h
    cases hn : naturals y <;> simp [hn]
  | c :: x, xs, y, h => by
    rw [naturals_cons] at h
    rw [List.cons_append, naturals_cons]
    cases hd : digit c with
    | none => rw [hd] at h; cases h
    | some d =>
      cases hx : naturals x with
      | none => rw [hd, hx] at h; cases h
      | some ns =>
        rw [hd, hx] at h
        rw [naturals_append y hx]
        simp only [Option.bind_some] at h ⊢
        cases hy : naturals y with
        | none => rfl
        | some ms =>
          simp only [Option.map_some, Option.bind_some]
          by_cases hlt : d < 32
          · simp only [hlt, if_true] at h ⊢
            cases h
            rfl
          · simp only [hlt, if_false] at h ⊢
            cases ns with
            | nil => cases h
            | cons n ns => cases h; rfl

theorem fields_append {x y : Str} {xs ys : List Int} (hx : fields x = some xs) (hy : fields y = some ys) :
    fields (x ++ y) = some (xs ++ ys) := by
  unfold fields at *
  rw [Option.map_eq_some_iff] at hx hy
  obtain ⟨a, h1, rfl⟩ := hx
  obtain ⟨b, h2, rfl⟩ := hy
  rw [naturals_append y h1, h2]
  simp

theorem readRel_iff {prev n : Nat} {s r : Str} : readRel prev s = some (n, r) ↔
    ∃ x d, s = x ++ r ∧ fields x = some [d] ∧ (prev : Int) + d = n ∧ In32 (n : Int) := by
  unfold readRel
  constructor
  · intro h
    split at h
    · cases h
    · rename_i d r' e
      obtain ⟨x, h1, h2⟩ := vlqDecode_iff.1 e
      dsimp only at h
      split at h
      · cases h
      · rename_i hn
        cases h
        exact ⟨x, d, h1, h2, by omega, by unfold In32; omega⟩
  · rintro ⟨x, d, rfl, hx, hd, h1, h2⟩
    rw [vlqDecode_iff.2 ⟨x, rfl, hx⟩]
    dsimp only
    rw [hd, if_neg (by omega)]
    simp

theorem accOf_inj {st st' : ParseState} (h : accOf st = accOf st') (hl : st.genLine = st'.genLine) : st = st' := by
  obtain ⟨a, b, c, d, e, f⟩ := st
  obtain ⟨a', b', c', d', e', f'⟩ := st'
  simp only [accOf, Acc.mk.injEq] at h
  simp only at hl
  simp only [ParseState.mk.injEq]
  omega

/-- One parsed segment. -/
theorem parseOne_some {st st' : ParseState} {s r : Str} {q : Parsed} (h : parseOne st s = some (q, st', r)) :
    ∃ x xs, s = x ++ r ∧ fields x = some xs ∧ x ≠ [] ∧ (AtSep r ∨ xs.length = 5) ∧
      readSeg (st.genLine + 1) (accOf st) x = some ([q.seg], accOf st') ∧ st'.genLine = st.genLine ∧ q.seg.In32 := by
  unfold parseOne at h
  split at h
  · cases h
  · rename_i gc s1 e1
    obtain ⟨x1, d1, rfl, f1, a1, i1⟩ := readRel_iff.1 e1
    have hne : ∀ y : Str, x1 ++ y ≠ [] := by
      intro y e
      cases x1 with
      | nil => cases f1
      | cons c x => cases e
    dsimp only at h
    split at h
    · rename_i hsep
      cases h
      refine ⟨x1, _, rfl, f1, by simpa using hne [], .inl ((atSep_iff _).1 hsep), ?_, rfl, i1, ?_⟩
      · simp only [readSeg, f1, accOf, Parsed.seg, a1, Option.map_none]
      · intro si ol oc ni e; cases e
    · split at h
      · cases h
      · rename_i src s2 e2
        obtain ⟨x2, d2, rfl, f2, a2, i2⟩ := readRel_iff.1 e2
        split at h
        · cases h
        · rename_i ol s3 e3
          obtain ⟨x3, d3, rfl, f3, a3, i3⟩ := readRel_iff.1 e3
          split at h
          · cases h
          · rename_i oc s4 e4
            obtain ⟨x4, d4, rfl, f4, a4, i4⟩ := readRel_iff.1 e4
            have f : fields (x1 ++ (x2 ++ (x3 ++ x4))) = some [d1, d2, d3, d4] :=
              fields_append f1 (fields_append f2 (fields_append f3 f4))
            split at h
            · rename_i hsep
              cases h
              refine ⟨x1 ++ (x2 ++ (x3 ++ x4)), _, by simp, f, hne _, .inl ((atSep_iff _).1 hsep), ?_, rfl, i1, ?_⟩
              · simp only [readSeg, f, accOf, Parsed.seg, a1, a2, a3, a4, Option.map_some]
                rfl
              · intro si ol oc ni e
                cases e
                exact ⟨i2, i3, i4, fun n e => by cases e⟩
            · split at h
              · cases h
              · rename_i nm s5 e5
                obtain ⟨x5, d5, rfl, f5, a5, i5⟩ := readRel_iff.1 e5
                have f : fields (x1 ++ (x2 ++ (x3 ++ (x4 ++ x5)))) = some [d1, d2, d3, d4, d5] :=
                  fields_append f1 (fields_append f2 (fields_append f3 (fields_append f4 f5)))
                cases h
                refine ⟨x1 ++ (x2 ++ (x3 ++ (x4 ++ x5))), _, by simp, f, hne _, .inr rfl, ?_, rfl, i1, ?_⟩
                · simp only [readSeg, f, accOf, Parsed.seg, a1, a2, a3, a4, a5, Option.map_some]
                  rfl
                · intro si ol oc ni e
                  cases e
                  exact ⟨i2, i3, i4, fun n e => by cases e; exact i5⟩

/-- The fuel is enough. -/
theorem spread_of_parse : ∀ (fuel : Nat) (st : ParseState) (s : Str) (qs : List Parsed), parseGo fuel st s = some qs →
    ∃ t, Spread s t ∧ decodeMid (st.genLine + 1) (accOf st) t = some (qs.map Parsed.seg) ∧
      ∀ g ∈ qs.map Parsed.seg, g.In32
  | fuel, st, [], qs, h => by
    rw [parseGo] at h; cases h
    exact ⟨[], .nil, decodeMid_nil _ _, by simp⟩
  | 0, st, c :: s, qs, h => by cases h
  | fuel + 1, st, c :: s, qs, h => by
    rw [parseGo] at h
    split at h
    · rename_i hc
      subst hc
      obtain ⟨t, h1, h2, h3⟩ := spread_of_parse fuel _ s qs h
      exact ⟨';' :: t, .sep (.inr rfl) h1, by rw [decodeMid_line]; exact h2, h3⟩
    · split at h
      · rename_i hc
        subst hc
        obtain ⟨t, h1, h2, h3⟩ := spread_of_parse fuel _ s qs h
        exact ⟨',' :: t, .sep (.inl rfl) h1, by rw [decodeMid_comma]; exact h2, h3⟩
      · split at h
        · cases h
        · rename_i q st' r e
          split at h
          · cases h
          · rename_i ps hps
            cases h
            obtain ⟨x, xs, hs, hf, hne, hr, hseg, hl, hin⟩ := parseOne_some e
            obtain ⟨t, h1, h2, h3⟩ := spread_of_parse fuel st' r ps hps
            have hall : ∀ g ∈ (q :: ps).map Parsed.seg, g.In32 := by
              intro g hg
              rcases List.mem_cons.1 hg with rfl | hg
              · exact hin
              · exact h3 g hg
            rw [hl] at h2
            rw [hs]
            rcases hr with hr | hr
            · refine ⟨x ++ t, .seg hf hne ((closed_iff _).2 hr) h1, ?_, hall⟩
              rw [decodeMid_seg (sep_of_fields hf) hseg t ((closed_iff _).1 (h1.closed ((closed_iff _).2 hr))), h2]
              rfl
            · refine ⟨x ++ ',' :: t, .five hf hr h1, ?_, hall⟩
              rw [decodeMid_seg (sep_of_fields hf) hseg (',' :: t) (show AtSep (',' :: t) from .inl rfl), decodeMid_comma, h2]
              rfl

theorem In32.nat {i : Int} (h : In32 i) : ∃ n : Nat, i = n ∧ n ≤ 4294967295 := by
  obtain ⟨h1, h2⟩ := h
  exact ⟨i.toNat, by omega, by omega⟩

/-- And back. -/
theorem parseOne_of_seg {st : ParseState} {x r : Str} {xs : List Int} (hf : fields x = some xs) (hne : x ≠ [])
    (hr : AtSep r ∨ xs.length = 5) {y : List Seg} {b : Acc}
    (hs : readSeg (st.genLine + 1) (accOf st) x = some (y, b)) (hin : ∀ g ∈ y, g.In32) :
    ∃ q st', parseOne st (x ++ r) = some (q, st', r) ∧ y = [q.seg] ∧ accOf st' = b ∧ st'.genLine = st.genLine := by
  unfold readSeg at hs
  rw [hf] at hs
  split at hs
  · rename_i e
    cases e
    exact absurd (fields_eq_nil hf) hne
  · -- one number
    rename_i c e
    cases e; cases hs
    have hsep : atSep r = true := by
      rcases hr with hr | hr
      · exact (atSep_iff r).2 hr
      · cases hr
    obtain ⟨gc, hgc, l1⟩ := In32.nat (hin _ (List.mem_singleton.2 rfl)).1
    replace hgc : (st.genCol : Int) + c = gc := hgc
    obtain ⟨r1, f1, e1⟩ := readRel_ok (t := r) hf hgc l1
    have : r1 = [] := fields_eq_nil f1
    subst this
    refine ⟨⟨st.genLine, gc, none⟩, { st with genCol := gc }, ?_, ?_, ?_, rfl⟩
    · simp only [parseOne, e1, List.nil_append, hsep, if_true]
    · simp only [Parsed.seg, accOf, hgc, Option.map_none]
    · simp only [accOf, hgc]
  · -- four numbers
    rename_i c s ol oc e
    cases e; cases hs
    have hsep : atSep r = true := by
      rcases hr with hr | hr
      · exact (atSep_iff r).2 hr
      · cases hr
    obtain ⟨k1, k2⟩ := hin _ (List.mem_singleton.2 rfl)
    obtain ⟨k3, k4, k5, _⟩ := k2 _ _ _ _ rfl
    obtain ⟨gc, hgc, l1⟩ := In32.nat k1
    replace hgc : (st.genCol : Int) + c = gc := hgc
    obtain ⟨si, hsi, l2⟩ := In32.nat k3
    replace hsi : (st.source : Int) + s = si := hsi
    obtain ⟨gl, hgl, l3⟩ := In32.nat k4
    replace hgl : (st.origLine : Int) + ol = gl := hgl
    obtain ⟨go, hgo, l4⟩ := In32.nat k5
    replace hgo : (st.origCol : Int) + oc = go := hgo
    obtain ⟨r1, f1, e1⟩ := readRel_ok (t := r) hf hgc l1
    obtain ⟨r2, f2, e2⟩ := readRel_ok (t := r) f1 hsi l2
    obtain ⟨r3, f3, e3⟩ := readRel_ok (t := r) f2 hgl l3
    obtain ⟨r4, f4, e4⟩ := readRel_ok (t := r) f3 hgo l4
    have : r4 = [] := fields_eq_nil f4
    subst this
    refine ⟨⟨st.genLine, gc, some (si, gl, go, none)⟩,
      { st with genCol := gc, source := si, origLine := gl, origCol := go }, ?_, ?_, ?_, rfl⟩
    · simp only [parseOne, e1, atSep_digits f1, e2, e3, e4, List.nil_append, hsep, if_true]
      simp
    · simp only [Parsed.seg, accOf, hgc, hsi, hgl, hgo, Option.map_some]
      rfl
    · simp only [accOf, hgc, hsi, hgl, hgo]
  · -- five numbers
    rename_i c s ol oc n e
    cases e; cases hs
    obtain ⟨k1, k2⟩ := hin _ (List.mem_singleton.2 rfl)
    obtain ⟨k3, k4, k5, k6⟩ := k2 _ _ _ _ rfl
    obtain ⟨gc, hgc, l1⟩ := In32.nat k1
    replace hgc : (st.genCol : Int) + c = gc := hgc
    obtain ⟨si, hsi, l2⟩ := In32.nat k3
    replace hsi : (st.source : Int) + s = si := hsi
    obtain ⟨gl, hgl, l3⟩ := In32.nat k4
    replace hgl : (st.origLine : Int) + ol = gl := hgl
    obtain ⟨go, hgo, l4⟩ := In32.nat k5
    replace hgo : (st.origCol : Int) + oc = go := hgo
    obtain ⟨ni, hni, l5⟩ := In32.nat (k6 _ rfl)
    replace hni : (st.name : Int) + n = ni := hni
    obtain ⟨r1, f1, e1⟩ := readRel_ok (t := r) hf hgc l1
    obtain ⟨r2, f2, e2⟩ := readRel_ok (t := r) f1 hsi l2
    obtain ⟨r3, f3, e3⟩ := readRel_ok (t := r) f2 hgl l3
    obtain ⟨r4, f4, e4⟩ := readRel_ok (t := r) f3 hgo l4
    obtain ⟨r5, f5, e5⟩ := readRel_ok (t := r) f4 hni l5
    have : r5 = [] := fields_eq_nil f5
    subst this
    refine ⟨⟨st.genLine, gc, some (si, gl, go, some ni)⟩,
      { st with genCol := gc, source := si, origLine := gl, origCol := go, name := ni }, ?_, ?_, ?_, rfl⟩
    · simp only [parseOne, e1, atSep_digits f1, e2, e3, e4, atSep_digits f4, e5, List.nil_append]
      simp
    · simp only [Parsed.seg, accOf, hgc, hsi, hgl, hgo, hni, Option.map_some]
      rfl
    · simp only [accOf, hgc, hsi, hgl, hgo, hni]
  · cases hs

theorem parse_of_spread {s t : Str} (h : Spread s t) : ∀ (fuel : Nat) (st : ParseState) (gs : List Seg), s.length ≤ fuel →
    decodeMid (st.genLine + 1) (accOf st) t = some gs → (∀ g ∈ gs, g.In32) →
    ∃ qs, parseGo fuel st s = some qs ∧ qs.map Parsed.seg = gs := by
  -- a segment and the rest
  have step : ∀ {x s t u : Str} {xs : List Int}, fields x = some xs → x ≠ [] → (AtSep s ∨ xs.length = 5) → AtSep u →
      (∀ l a, decodeMid l a u = decodeMid l a t) →
      (∀ (fuel : Nat) (st : ParseState) (gs : List Seg), s.length ≤ fuel →
        decodeMid (st.genLine + 1) (accOf st) t = some gs → (∀ g ∈ gs, g.In32) →
        ∃ qs, parseGo fuel st s = some qs ∧ qs.map Parsed.seg = gs) →
      ∀ (fuel : Nat) (st : ParseState) (gs : List Seg), (x ++ s).length ≤ fuel →
        decodeMid (st.genLine + 1) (accOf st) (x ++ u) = some gs → (∀ g ∈ gs, g.In32) →
        ∃ qs, parseGo fuel st (x ++ s) = some qs ∧ qs.map Parsed.seg = gs := by
    intro x s t u xs hf hne hr hu hut ih fuel st gs hl hd hin
    rw [decodeMid_seg_bind (sep_of_fields hf) u hu, Option.bind_eq_some_iff] at hd
    obtain ⟨⟨y, b⟩, hy, hd⟩ := hd
    rw [Option.map_eq_some_iff] at hd
    obtain ⟨zs, hz, rfl⟩ := hd
    dsimp only at hz hin
    obtain ⟨q, st', e1, rfl, rfl, hline⟩ := parseOne_of_seg hf hne hr hy (fun g hg => hin g (by simp [hg]))
    cases x with
    | nil => exact absurd rfl hne
    | cons c x =>
      simp only [List.cons_append, List.length_cons, List.length_append] at hl
      obtain ⟨f, rfl⟩ : ∃ f, fuel = f + 1 := ⟨fuel - 1, by omega⟩
      obtain ⟨qs, e2, rfl⟩ := ih f st' zs (by omega) (by rw [hline, ← hut]; exact hz) (fun g hg => hin g (by simp [hg]))
      have hsep := sep_of_fields hf
      simp only [List.mem_cons, not_or] at hsep
      refine ⟨q :: qs, ?_, rfl⟩
      rw [List.cons_append] at e1 ⊢
      rw [parseGo, if_neg (fun e => hsep.2.1 e.symm), if_neg (fun e => hsep.1.1 e.symm), e1]
      simp only [e2]
  induction h with
  | nil =>
    intro fuel st gs _ hd _
    rw [decodeMid_nil] at hd
    cases hd
    exact ⟨[], by cases fuel <;> rfl, rfl⟩
  | @sep c s t hc h ih =>
    intro fuel st gs hl hd hin
    rw [List.length_cons] at hl
    obtain ⟨f, rfl⟩ : ∃ f, fuel = f + 1 := ⟨fuel - 1, by omega⟩
    rcases hc with rfl | rfl
    · rw [decodeMid_comma] at hd
      obtain ⟨qs, e, r⟩ := ih f st gs (by omega) hd hin
      exact ⟨qs, by rw [parseGo, if_neg (by decide), if_pos rfl]; exact e, r⟩
    · rw [decodeMid_line] at hd
      obtain ⟨qs, e, r⟩ := ih f { st with genLine := st.genLine + 1, genCol := 0 } gs (by omega) hd hin
      exact ⟨qs, by rw [parseGo, if_pos rfl]; exact e, r⟩
  | seg hx hne hs h ih =>
    exact step hx hne (.inl ((closed_iff _).1 hs)) ((closed_iff _).1 (h.closed hs)) (fun _ _ => rfl) ih
  | @five x s t xs hx hl h ih =>
    refine step hx ?_ (.inr hl) (.inl rfl) (fun _ _ => decodeMid_comma _ _ _) ih
    rintro rfl
    cases hx; cases hl

theorem Parsed.seg_inj {a b : Parsed} (h : a.seg = b.seg) : a = b := by
  obtain ⟨l, c, o⟩ := a
  obtain ⟨l', c', o'⟩ := b
  simp only [Parsed.seg, Seg.mk.injEq] at h
  obtain ⟨h1, h2, h3⟩ := h
  have e1 : l = l' := by omega
  have e2 : c = c' := by omega
  subst e1; subst e2
  cases o with
  | none =>
    cases o' with
    | none => rfl
    | some o' => cases h3
  | some o =>
    cases o' with
    | none => cases h3
    | some o' =>
      obtain ⟨a1, a2, a3, a4⟩ := o
      obtain ⟨b1, b2, b3, b4⟩ := o'
      simp only [Option.map_some, Option.some.injEq, Prod.mk.injEq] at h3
      obtain ⟨k1, k2, k3, k4⟩ := h3
      have e1 : a1 = b1 := by omega
      have e2 : a2 = b2 := by omega
      have e3 : a3 = b3 := by omega
      subst e1; subst e2; subst e3
      cases a4 with
      | none =>
        cases b4 with
        | none => rfl
        | some b => cases k4
      | some a =>
        cases b4 with
        | none => cases k4
        | some b =>
          replace k4 : some (a : Int) = some (b : Int) := k4
          simp only [Option.some.injEq] at k4
          have : a = b := by omega
          subst this
          rfl

theorem segs_inj : ∀ {as bs : List Parsed}, as.map Parsed.seg = bs.map Parsed.seg → as = bs
  | [], [], _ => rfl
  | [], _ :: _, h => by cases h
  | _ :: _, [], h => by cases h
  | a :: as, b :: bs, h => by
    simp only [List.map_cons, List.cons.injEq] at h
    rw [Parsed.seg_inj h.1, segs_inj h.2]

/-- Which strings are parsed, and into what. -/
theorem parse_iff (s : Str) (qs : List Parsed) : parseGo s.length {} s = some qs ↔
    ∃ t, Spread s t ∧ decode t = some (qs.map Parsed.seg) ∧ ∀ g ∈ qs.map Parsed.seg, g.In32 := by
  constructor
  · intro h
    obtain ⟨t, h1, h2, h3⟩ := spread_of_parse _ _ _ _ h
    exact ⟨t, h1, by rw [decode_eq]; exact h2, h3⟩
  · rintro ⟨t, h1, h2, h3⟩
    rw [decode_eq] at h2
    obtain ⟨qs', e, r⟩ := parse_of_spread h1 s.length {} _ (Nat.le_refl _) h2 h3
    rw [e, segs_inj r]

/-- C81: a map of any characters is read as if commas were put in after every fifth number of a segment. -/
theorem C81_same (s t : Str) (h : Spread s t) (gs : List Seg) (hd : decode t = some gs) (hin : ∀ g ∈ gs, g.In32)
    (sources contents names : List Int) (file : Option Int) (root : Option Str) (checkDup : Bool) :
    Generator.fromSourceMap sources contents s names file root checkDup =
      Generator.fromSourceMap sources contents t names file root checkDup := by
  rw [decode_eq] at hd
  obtain ⟨q1, e1, r1⟩ := parse_of_spread h s.length {} _ (Nat.le_refl _) hd hin
  obtain ⟨q2, e2, r2⟩ := parse_of_spread h.again t.length {} _ (Nat.le_refl _) hd hin
  have : q1 = q2 := segs_inj (r1.trans r2.symm)
  subst this
  unfold Generator.fromSourceMap parseMappings
  rw [e1, e2]

theorem addParsed_reads {S N : List Int} : ∀ (qs : List Parsed) (g : Generator),
    (∃ g', addParsed S N g qs = .ok g') ↔ ∀ q ∈ qs, ∃ m, resolveParsed S N q = .ok m
  | qs, g => by
    constructor
    · rintro ⟨g', h⟩
      exact addParsed_all h
    · intro h
      induction qs generalizing g with
      | nil => exact ⟨g, rfl⟩
      | cons q qs ih =>
        obtain ⟨m, hm⟩ := h q (by simp)
        rw [addParsed, hm]
        exact ih _ (fun q hq => h q (by simp [hq]))

theorem resolveParsed_iff {S N : List Int} {q : Parsed} : (∃ m, resolveParsed S N q = .ok m) ↔
    ∀ si ol oc ni, q.seg.orig = some (si, ol, oc, ni) → si < S.length ∧ ∀ n, ni = some n → n < N.length := by
  obtain ⟨l, c, o⟩ := q
  cases o with
  | none => exact ⟨(fun _ _ _ _ _ e => by cases e), (fun _ => ⟨_, rfl⟩)⟩
  | some o =>
    obtain ⟨si, ol, oc, ni⟩ := o
    constructor
    · rintro ⟨m, h⟩ si' ol' oc' ni' e
      simp only [Parsed.seg, Option.map_some, Option.some.injEq, Prod.mk.injEq] at e
      obtain ⟨rfl, rfl, rfl, rfl⟩ := e
      unfold resolveParsed at h
      dsimp only at h
      split at h
      · cases h
      · rename_i name en
        split at h
        · cases h
        · rename_i src es
          have := (List.getElem?_eq_some_iff.1 es).1
          refine ⟨by omega, ?_⟩
          intro n hn
          cases ni with
          | none => cases hn
          | some i =>
            cases hn
            dsimp only at en
            split at en
            · rename_i y hy
              exact Int.ofNat_lt.2 (List.getElem?_eq_some_iff.1 hy).1
            · cases en
    · intro h
      obtain ⟨h1, h2⟩ := h _ _ _ _ rfl
      unfold resolveParsed
      have hs : S[si]? = some (S[si]'(by omega)) := List.getElem?_eq_getElem _
      cases ni with
      | none =>
        dsimp only
        rw [hs]
        exact ⟨_, rfl⟩
      | some i =>
        have hi : i < N.length := by
          have : (i : Int) < N.length := h2 _ rfl
          omega
        have hn : N[i]? = some (N[i]'hi) := List.getElem?_eq_getElem _
        dsimp only
        rw [hn]
        dsimp only
        rw [hs]
        exact ⟨_, rfl⟩

/-- The conditions on a map given as data. -/
def Spec.ColumnsRead (sources names : List Int) (mappings : List Char) : Prop :=
  ∃ t gs, Spread mappings t ∧ decode t = some gs ∧ ∀ g ∈ gs, g.In32 ∧ ∀ si ol oc ni, g.orig = some (si, ol, oc, ni) →
    si < sources.eraseDups.length ∧ ∀ n, ni = some n → n < names.eraseDups.length

/-- C81: which maps are read into a generator. -/
theorem C81_reads (sources contents names : List Int) (s : Str) (file : Option Int) (root : Option Str) :
    (∃ g, Generator.fromSourceMap sources contents s names file root true = .ok g) ↔ ColumnsRead sources names s := by
  unfold Generator.fromSourceMap parseMappings
  simp only [if_true, dedup_eraseDups]
  constructor
  · rintro ⟨g, h⟩
    cases hp : parseGo s.length {} s with
    | none => rw [hp] at h; cases h
    | some qs =>
      rw [hp] at h
      dsimp only at h
      obtain ⟨t, h1, h2, h3⟩ := (parse_iff s qs).1 hp
      refine ⟨t, _, h1, h2, fun x hx => ⟨h3 x hx, ?_⟩⟩
      obtain ⟨q, hq, rfl⟩ := List.mem_map.1 hx
      exact resolveParsed_iff.1 ((addParsed_reads _ _).1 ⟨g, h⟩ q ((sortBy_perm qs).mem_iff.2 hq))
  · rintro ⟨t, gs, h1, h2, h3⟩
    rw [decode_eq] at h2
    obtain ⟨qs, e, rfl⟩ := parse_of_spread h1 s.length {} _ (Nat.le_refl _) h2 (fun g hg => (h3 g hg).1)
    rw [e]
    refine (addParsed_reads _ _).2 fun q hq => resolveParsed_iff.2 (h3 _ (List.mem_map_of_mem ?_)).2
    exact (sortBy_perm qs).mem_iff.1 hq

/-! Non-trivial case: ten numbers without a separator; it is not a well-formed string, yet it is read, as two segments.
Two numbers left over, a column below 0 and an index of a source that is there only because another is repeated are
refused. -/

theorem c81_spread : Spread "AACAACCACA;AAAA".toList "AACAA,CCACA;AAAA".toList :=
  .five (x := "AACAA".toList) (s := "CCACA;AAAA".toList) (t := "CCACA;AAAA".toList) (xs := [0, 0, 1, 0, 0])
    (by decide +kernel) rfl
    (.seg (x := "CCACA".toList) (s := ";AAAA".toList) (t := ";AAAA".toList) (xs := [1, 1, 0, 1, 0]) (by decide +kernel)
      (by decide) (.inr rfl)
      (.sep (.inr rfl) (.seg (x := "AAAA".toList) (s := []) (t := []) (xs := [0, 0, 0, 0]) (by decide +kernel) (by decide)
        trivial .nil)))

theorem c81_decoded : decode "AACAA,CCACA;AAAA".toList =
    some [⟨1, 0, some (0, 1, 0, some 0)⟩, ⟨1, 1, some (1, 1, 1, some 0)⟩, ⟨2, 0, some (1, 1, 1, none)⟩] := by
  decide +kernel

theorem c81_read : ColumnsRead [5, 5, 6] [7] "AACAACCACA;AAAA".toList := by
  refine ⟨_, _, c81_spread, c81_decoded, ?_⟩
  have e : ([5, 5, 6] : List Int).eraseDups.length = 2 ∧ ([7] : List Int).eraseDups.length = 1 := by decide +kernel
  rw [e.1, e.2]
  intro g hg
  simp only [List.mem_cons, List.not_mem_nil, or_false] at hg
  rcases hg with rfl | rfl | rfl <;>
  · refine ⟨⟨⟨by decide, by decide⟩, ?_⟩, ?_⟩
    · rintro si ol oc ni ⟨⟩
      refine ⟨⟨by decide, by decide⟩, ⟨by decide, by decide⟩, ⟨by decide, by decide⟩, ?_⟩
      rintro n ⟨⟩ <;> exact ⟨by decide, by decide⟩
    · rintro si ol oc ni ⟨⟩
      refine ⟨by decide, ?_⟩
      rintro n ⟨⟩ <;> decide

example : decode "AACAACCACA;AAAA".toList = none := by decide +kernel
example : (Generator.fromSourceMap [5, 5, 6] [] "AACAACCACA;AAAA".toList [7] none none true).toOption.map (·.mappings.list) =
    some [⟨(1, 0), some 5, some 7, some (2, 0)⟩, ⟨(1, 1), some 6, some 7, some (2, 1)⟩, ⟨(2, 0), some 6, none, some (2, 1)⟩] :=
  by decide +kernel

theorem c81_refused {ss ns : List Int} {s : Str}
    (h : (Generator.fromSourceMap ss [] s ns none none true).toOption.isSome = false) : ¬ ColumnsRead ss ns s := by
  intro k
  obtain ⟨g, e⟩ := (C81_reads ss [] ns s none none).2 k
  rw [e] at h
  cases h

example : ¬ ColumnsRead [5, 5, 6] [7] "AACAACC".toList := c81_refused (by decide +kernel)
example : ¬ ColumnsRead [5, 5, 6] [7] "D".toList := c81_refused (by decide +kernel)
example : ¬ ColumnsRead [5, 5, 6] [7] "AEAA".toList := c81_refused (by decide +kernel)

end WS
