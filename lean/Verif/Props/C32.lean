import Verif.Props.C11
/-! # C32 Exactly which maps with repeated names are read correctly -/

namespace WS
open Spec

/-! ## The filtered tables -/

theorem dedup_fresh {a : Int} : ∀ {l seen : List Int}, a ∈ dedup seen l → a ∉ seen := by
  intro l
  induction l with
  | nil => intro seen h; simp [dedup] at h
  | cons b l ih =>
    intro seen h
    rw [dedup] at h
    split at h
    · exact ih h
    · rename_i hb
      rcases List.mem_cons.1 h with rfl | h
      · exact hb
      · exact fun hm => ih h (List.mem_cons_of_mem _ hm)

/-- Element `i` of the filtered table stands at `i` or behind in the table, and at `i` only if nothing
was repeated up to there. -/
theorem dedup_rank {a : Int} : ∀ {l seen : List Int} {i : Nat}, (dedup seen l)[i]? = some a →
    i ≤ l.idxOf a ∧ (l.idxOf a = i → (l.take (i + 1)).Nodup ∧ ∀ x ∈ l.take (i + 1), x ∉ seen) := by
  intro l
  induction l with
  | nil => intro seen i h; simp [dedup] at h
  | cons b l ih =>
    intro seen i h
    have hf := dedup_fresh (List.mem_of_getElem? h)
    rw [dedup] at h
    split at h
    · rename_i hb
      have hne : b ≠ a := fun e => hf (e ▸ hb)
      have := (ih h).1
      rw [List.idxOf_cons]
      have hbeq : (b == a) = false := by simpa using hne
      rw [hbeq]
      simp only [cond_false]
      exact ⟨by omega, by omega⟩
    · rename_i hb
      cases i with
      | zero =>
        simp only [List.getElem?_cons_zero, Option.some.injEq] at h
        subst h
        exact ⟨Nat.zero_le _, fun _ => by simpa using hb⟩
      | succ i =>
        simp only [List.getElem?_cons_succ] at h
        have hf' := dedup_fresh (List.mem_of_getElem? h)
        have hne : b ≠ a := fun e => hf' (by simp [e])
        have hbeq : (b == a) = false := by simpa using hne
        obtain ⟨h1, h2⟩ := ih h
        rw [List.idxOf_cons, hbeq]
        simp only [cond_false, List.take_succ_cons]
        refine ⟨by omega, fun e => ?_⟩
        obtain ⟨h3, h4⟩ := h2 (by omega)
        refine ⟨List.nodup_cons.2 ⟨fun hm => h4 b hm (by simp), h3⟩, ?_⟩
        intro x hx
        rcases List.mem_cons.1 hx with rfl | hx
        · exact hb
        · exact fun hm => h4 x hx (by simp [hm])

theorem dedup_get : ∀ {l seen : List Int} {i : Nat}, (l.take (i + 1)).Nodup →
    (∀ x ∈ l.take (i + 1), x ∉ seen) → (dedup seen l)[i]? = l[i]? := by
  intro l
  induction l with
  | nil => intro seen i _ _; simp [dedup]
  | cons b l ih =>
    intro seen i h1 h2
    rw [List.take_succ_cons] at h1 h2
    rw [List.nodup_cons] at h1
    rw [dedup, if_neg (h2 b (by simp))]
    cases i with
    | zero => simp
    | succ i =>
      simp only [List.getElem?_cons_succ]
      refine ih h1.2 fun x hx => ?_
      simp only [List.mem_cons, not_or]
      exact ⟨fun e => h1.1 (e ▸ hx), h2 x (by simp [hx])⟩

theorem dedup_length : ∀ (l seen : List Int), (dedup seen l).length ≤ l.length := by
  intro l
  induction l with
  | nil => intro _; simp [dedup]
  | cons b l ih =>
    intro seen
    rw [dedup]
    split
    · exact Nat.le_succ_of_le (ih seen)
    · exact Nat.succ_le_succ (ih _)

theorem idxOf_getElem_le : ∀ {l : List Int} {i : Nat} {a : Int}, l[i]? = some a → l.idxOf a ≤ i := by
  intro l
  induction l with
  | nil => intro i a h; simp at h
  | cons b l ih =>
    intro i a h
    rw [List.idxOf_cons]
    cases i with
    | zero =>
      simp only [List.getElem?_cons_zero, Option.some.injEq] at h
      simp [h]
    | succ i =>
      simp only [List.getElem?_cons_succ] at h
      have := ih h
      cases b == a
      · simp only [cond_false]; omega
      · simp

/-! ## The weight of a reading -/

/-- Where the names of a point stand in the tables. -/
def Spec.Point.weight (ss ns : List Int) (p : Point) : Nat :=
  match p.origin with
  | none => 0
  | some o => ss.idxOf o.source + (match o.name with | none => 0 | some n => ns.idxOf n)

/-- Every index of the segment selects an entry before the first repetition of its table. -/
def Spec.Seg.Early (ss ns : List Int) (g : Seg) : Prop :=
  ∀ si ol oc ni, g.orig = some (si, ol, oc, ni) →
    (ss.take (si.toNat + 1)).Nodup ∧ ∀ n, ni = some n → (ns.take (n.toNat + 1)).Nodup

theorem early_resolve {ss ns : List Int} {g : Seg} (h : g.Early ss ns) :
    g.resolve (dedup [] ss) (dedup [] ns) = g.resolve ss ns := by
  obtain ⟨l, c, o⟩ := g
  cases o with
  | none =>
    unfold Seg.resolve
    dsimp only
    cases nat? c <;> rfl
  | some o =>
    obtain ⟨si, ol, oc, ni⟩ := o
    obtain ⟨h1, h2⟩ := h si ol oc ni rfl
    have e1 : at? (dedup [] ss) si = at? ss si := by
      unfold at?; rw [dedup_get h1 (by simp)]
    have e2 : ∀ n, ni = some n → at? (dedup [] ns) n = at? ns n := by
      intro n hn; unfold at?; rw [dedup_get (h2 n hn) (by simp)]
    unfold Seg.resolve
    dsimp only
    cases nat? c with
    | none => rfl
    | some c =>
      dsimp only
      rw [e1]
      cases ni with
      | none => rfl
      | some n => dsimp only; rw [e2 n rfl]

theorem at?_rank {ss : List Int} {i : Int} {a b : Int} (ha : at? ss i = some a)
    (hb : at? (dedup [] ss) i = some b) :
    ss.idxOf a ≤ ss.idxOf b ∧ (ss.idxOf b ≤ ss.idxOf a → (ss.take (i.toNat + 1)).Nodup) := by
  unfold at? at ha hb
  split at ha
  · cases ha
  · rename_i hi
    rw [if_neg hi] at hb
    have h1 := idxOf_getElem_le ha
    have h2 := dedup_rank hb
    exact ⟨by omega, fun h => (h2.2 (by omega)).1⟩

/-- When a segment with an origin resolves. -/
theorem resolve_orig_iff {S N : List Int} {l : Nat} {c si ol oc : Int} {ni : Option Int} {p : Point} :
    Seg.resolve S N ⟨l, c, some (si, ol, oc, ni)⟩ = some p ↔
      ∃ c' ol' oc' a x, nat? c = some c' ∧ nat? ol = some ol' ∧ nat? oc = some oc' ∧ at? S si = some a ∧
        ((ni = none ∧ x = none) ∨ ∃ n y, ni = some n ∧ at? N n = some y ∧ x = some y) ∧
        p = ⟨l, c', some ⟨a, ol' + 1, oc', x⟩⟩ := by
  constructor
  · intro h
    unfold Seg.resolve at h
    split at h
    · cases h
    · rename_i e; cases e
    · rename_i c' _ _ _ _ hc e
      cases e
      split at h
      · rename_i a ol' oc' ha hol hoc
        split at h
        · cases h
          exact ⟨c', ol', oc', a, none, hc, hol, hoc, ha, .inl ⟨rfl, rfl⟩, rfl⟩
        · split at h
          · cases h
          · rename_i n _ y hy
            cases h
            exact ⟨c', ol', oc', a, some y, hc, hol, hoc, ha, .inr ⟨n, y, rfl, hy, rfl⟩, rfl⟩
      · cases h
  · rintro ⟨c', ol', oc', a, x, h1, h2, h3, h4, h5, rfl⟩
    unfold Seg.resolve
    dsimp only
    rw [h1]
    dsimp only
    rw [h2, h3, h4]
    rcases h5 with ⟨rfl, rfl⟩ | ⟨n, y, rfl, hy, rfl⟩
    · rfl
    · dsimp only
      rw [hy]

theorem resolve_none_iff {S N : List Int} {l : Nat} {c : Int} {p : Point} :
    Seg.resolve S N ⟨l, c, none⟩ = some p ↔ ∃ c', nat? c = some c' ∧ p = ⟨l, c', none⟩ := by
  unfold Seg.resolve
  dsimp only
  cases nat? c with
  | none => simp
  | some c' => simp [eq_comm]

theorem resolve_weight {ss ns : List Int} {g : Seg} {p q : Point} (hp : g.resolve ss ns = some p)
    (hq : g.resolve (dedup [] ss) (dedup [] ns) = some q) :
    p.weight ss ns ≤ q.weight ss ns ∧ (q.weight ss ns ≤ p.weight ss ns → g.Early ss ns) := by
  obtain ⟨l, c, o⟩ := g
  cases o with
  | none =>
    obtain ⟨_, _, rfl⟩ := resolve_none_iff.1 hp
    obtain ⟨_, _, rfl⟩ := resolve_none_iff.1 hq
    exact ⟨Nat.le_refl _, fun _ si ol oc ni h => (by cases h)⟩
  | some o =>
    obtain ⟨si, ol, oc, ni⟩ := o
    obtain ⟨_, _, _, a, x, _, _, _, ha, hx, rfl⟩ := resolve_orig_iff.1 hp
    obtain ⟨_, _, _, b, y, _, _, _, hb, hy, rfl⟩ := resolve_orig_iff.1 hq
    have h1 := at?_rank ha hb
    rcases hx with ⟨rfl, rfl⟩ | ⟨n, x, rfl, hx, rfl⟩
    · rcases hy with ⟨_, rfl⟩ | ⟨n, y, e, _⟩
      · simp only [Point.weight]
        refine ⟨by omega, fun h => ?_⟩
        intro si' ol' oc' ni' e
        cases e
        exact ⟨h1.2 (by omega), fun n e => by cases e⟩
      · cases e
    · rcases hy with ⟨e, _⟩ | ⟨n', y, e, hy, rfl⟩
      · cases e
      · cases e
        have h2 := at?_rank hx hy
        simp only [Point.weight]
        refine ⟨by omega, fun h => ?_⟩
        intro si' ol' oc' ni' e
        cases e
        refine ⟨h1.2 (by omega), fun n' e => ?_⟩
        cases e
        exact h2.2 (by omega)

theorem resolveAll_weight {ss ns : List Int} : ∀ {gs : List Seg} {ps qs : List Point},
    resolveAll ss ns gs = some ps → resolveAll (dedup [] ss) (dedup [] ns) gs = some qs →
    (ps.map (Point.weight ss ns)).sum ≤ (qs.map (Point.weight ss ns)).sum ∧
      ((qs.map (Point.weight ss ns)).sum ≤ (ps.map (Point.weight ss ns)).sum →
        ∀ g ∈ gs, g.Early ss ns) := by
  intro gs
  induction gs with
  | nil =>
    intro ps qs h1 h2
    cases h1; cases h2
    exact ⟨Nat.le_refl _, fun _ g hg => by cases hg⟩
  | cons g gs ih =>
    intro ps qs h1 h2
    rw [resolveAll] at h1 h2
    cases ha : g.resolve ss ns with
    | none => rw [ha] at h1; cases h1
    | some p =>
    cases hb : resolveAll ss ns gs with
    | none => rw [ha, hb] at h1; cases h1
    | some ps' =>
    cases hc : g.resolve (dedup [] ss) (dedup [] ns) with
    | none => rw [hc] at h2; cases h2
    | some q =>
    cases hd : resolveAll (dedup [] ss) (dedup [] ns) gs with
    | none => rw [hc, hd] at h2; cases h2
    | some qs' =>
    rw [ha, hb] at h1; rw [hc, hd] at h2
    cases h1; cases h2
    have k1 := resolve_weight ha hc
    have k2 := ih hb hd
    simp only [List.map_cons, List.sum_cons]
    refine ⟨by omega, fun h x hx => ?_⟩
    rcases List.mem_cons.1 hx with rfl | hx
    · exact k1.2 (by omega)
    · exact k2.2 (by omega) x hx

theorem resolveAll_early {ss ns : List Int} : ∀ {gs : List Seg}, (∀ g ∈ gs, g.Early ss ns) →
    resolveAll (dedup [] ss) (dedup [] ns) gs = resolveAll ss ns gs := by
  intro gs
  induction gs with
  | nil => intro _; rfl
  | cons g gs ih =>
    intro h
    rw [resolveAll, resolveAll, early_resolve (h g (by simp)), ih fun x hx => h x (by simp [hx])]

/-! ## What the parser hands on -/

/-- What was parsed, as the specification writes it. -/
def Parsed.seg (q : Parsed) : Seg :=
  ⟨q.genLine + 1, q.genCol, q.original.map fun o => (o.1, o.2.1, o.2.2.1, o.2.2.2.map fun n => (n : Int))⟩

/-- Tables in which every entry is its own index. -/
def idTable (n : Nat) : List Int := (List.range n).map fun (i : Nat) => (i : Int)

theorem idTable_get {n i : Nat} : (idTable n)[i]? = if i < n then some (i : Int) else none := by
  unfold idTable
  rw [List.getElem?_map]
  by_cases h : i < n <;> simp [h]

theorem at?_idTable {l : List Int} {i a : Int} (h : at? l i = some a) : at? (idTable l.length) i = some i := by
  unfold at? at h ⊢
  split at h
  · cases h
  · rename_i hi
    rw [if_neg hi, idTable_get, if_pos (List.getElem?_eq_some_iff.1 h).1]
    congr 1
    omega

theorem resolve_ids {ss ns : List Int} {g : Seg} {p : Point} (h : g.resolve ss ns = some p) :
    ∃ p', g.resolve (idTable ss.length) (idTable ns.length) = some p' ∧ (p.Small → p'.Small) := by
  obtain ⟨l, c, o⟩ := g
  cases o with
  | none =>
    obtain ⟨c', hc, rfl⟩ := resolve_none_iff.1 h
    exact ⟨_, resolve_none_iff.2 ⟨c', hc, rfl⟩, id⟩
  | some o =>
    obtain ⟨si, ol, oc, ni⟩ := o
    obtain ⟨c', ol', oc', a, x, h1, h2, h3, h4, h5, rfl⟩ := resolve_orig_iff.1 h
    refine ⟨⟨l, c', some ⟨si, ol' + 1, oc', ni⟩⟩,
      resolve_orig_iff.2 ⟨c', ol', oc', si, ni, h1, h2, h3, at?_idTable h4, ?_, rfl⟩,
      fun hs => ⟨hs.1, fun o e => (by cases e; exact hs.2 ⟨a, ol' + 1, oc', x⟩ rfl)⟩⟩
    rcases h5 with ⟨rfl, rfl⟩ | ⟨n, y, rfl, hy, rfl⟩
    · exact .inl ⟨rfl, rfl⟩
    · exact .inr ⟨n, n, rfl, at?_idTable hy, rfl⟩

theorem resolveAll_ids {ss ns : List Int} : ∀ {gs : List Seg} {ps : List Point},
    resolveAll ss ns gs = some ps → (∀ p ∈ ps, p.Small) →
    ∃ ps', resolveAll (idTable ss.length) (idTable ns.length) gs = some ps' ∧ ∀ p ∈ ps', p.Small := by
  intro gs
  induction gs with
  | nil => intro ps h _; exact ⟨[], rfl, fun p hp => by cases hp⟩
  | cons g gs ih =>
    intro ps h hs
    rw [resolveAll] at h
    split at h
    · rename_i p qs hp hq
      cases h
      obtain ⟨p', e1, k1⟩ := resolve_ids hp
      obtain ⟨ps', e2, k2⟩ := ih hq fun x hx => hs x (by simp [hx])
      refine ⟨p' :: ps', by rw [resolveAll, e1, e2], ?_⟩
      intro x hx
      rcases List.mem_cons.1 hx with rfl | hx
      · exact k1 (hs p (by simp))
      · exact k2 x hx
    · cases h

theorem nat?_iff {c : Int} {n : Nat} : nat? c = some n ↔ c = n := by
  unfold nat?
  split
  · constructor
    · intro h; cases h
    · intro h; omega
  · simp only [Option.some.injEq]; omega

/-- Read with tables of indices, what was parsed is what the segment says. -/
theorem seg_of_resolve {m n : Nat} {q : Parsed} {g : Seg} {p : Point}
    (h1 : resolveParsed (idTable m) (idTable n) q = .ok (mappingOf p))
    (h2 : g.resolve (idTable m) (idTable n) = some p) : q.seg = g := by
  obtain ⟨l, c, o⟩ := g
  obtain ⟨gl, gc, qo⟩ := q
  cases o with
  | none =>
    obtain ⟨c', hc, rfl⟩ := resolve_none_iff.1 h2
    rw [nat?_iff] at hc
    cases qo with
    | none =>
      simp only [resolveParsed, Except.ok.injEq, mappingOf, Mapping.mk.injEq, Prod.mk.injEq] at h1
      simp [Parsed.seg, h1.1.1, h1.1.2, hc]
    | some qo =>
      obtain ⟨si, ol, oc, ni⟩ := qo
      exfalso
      unfold resolveParsed at h1
      dsimp only at h1
      split at h1
      · cases h1
      · split at h1
        · cases h1
        · simp [mappingOf] at h1
  | some o =>
    obtain ⟨si, ol, oc, ni⟩ := o
    obtain ⟨c', ol', oc', a, x, k1, k2, k3, k4, k5, rfl⟩ := resolve_orig_iff.1 h2
    rw [nat?_iff] at k1 k2 k3
    have ida : ∀ {k : Nat} {i b : Int}, at? (idTable k) i = some b → i = b := by
      intro k i b h
      unfold at? at h
      split at h
      · cases h
      · rw [idTable_get] at h
        split at h
        · cases h; omega
        · cases h
    have ha := ida k4
    cases qo with
    | none => simp [resolveParsed, mappingOf] at h1
    | some qo =>
      obtain ⟨si', ol2, oc2, ni'⟩ := qo
      unfold resolveParsed at h1
      dsimp only at h1
      split at h1
      · cases h1
      · rename_i name en
        split at h1
        · cases h1
        · rename_i src es
          simp only [mappingOf, Except.ok.injEq, Mapping.mk.injEq, Prod.mk.injEq, Option.map_some,
            Option.bind_some, Option.some.injEq] at h1
          rw [idTable_get] at es
          split at es
          · cases es
            obtain ⟨⟨e1, e2⟩, e3, e4, e5⟩ := h1
            have hni : ni'.map (fun n => (n : Int)) = ni := by
              cases ni' with
              | none =>
                simp only [Except.ok.injEq] at en
                rcases k5 with ⟨rfl, _⟩ | ⟨_, _, _, _, e⟩
                · rfl
                · subst en; subst e; simp_all
              | some i =>
                dsimp only at en
                rw [idTable_get] at en
                split at en
                · rename_i hh
                  split at hh
                  · cases hh
                    simp only [Except.ok.injEq] at en
                    rcases k5 with ⟨_, e⟩ | ⟨n', y, e, hy, e'⟩
                    · subst en; subst e; simp_all
                    · have := ida hy
                      subst en; subst e'; subst e; simp_all
                  · cases hh
                · cases en
            simp only [Parsed.seg, Option.map_some, hni, Seg.mk.injEq, Option.some.injEq, Prod.mk.injEq,
              and_true]
            omega
          · cases es

theorem segs_of_resolve {m n : Nat} : ∀ {qs : List Parsed} {gs : List Seg} {ps : List Point},
    qs.map (resolveParsed (idTable m) (idTable n)) = ps.map (fun p => .ok (mappingOf p)) →
    resolveAll (idTable m) (idTable n) gs = some ps → gs = qs.map Parsed.seg := by
  intro qs
  induction qs with
  | nil =>
    intro gs ps h1 h2
    cases ps with
    | nil =>
      cases gs with
      | nil => rfl
      | cons g gs => rw [resolveAll] at h2; split at h2 <;> cases h2
    | cons p ps => cases h1
  | cons q qs ih =>
    intro gs ps h1 h2
    cases ps with
    | nil => cases h1
    | cons p ps =>
      simp only [List.map_cons, List.cons.injEq] at h1
      cases gs with
      | nil => cases h2
      | cons g gs =>
        rw [resolveAll] at h2
        split at h2
        · rename_i hp hq
          cases h2
          rw [List.map_cons, seg_of_resolve h1.1 hp, ih h1.2 hq]
        · cases h2

/-- The parser hands on exactly the segments of the string. -/
theorem parse_segs {ss ns : List Int} {s : Str} {ps : List Point} (hp : points ss ns s = some ps)
    (hsm : ∀ p ∈ ps, p.Small) (hss : ss.length ≤ 4294967296) (hns : ns.length ≤ 4294967296) :
    ∃ qs, parseGo s.length {} s = some qs ∧ decode s = some (qs.map Parsed.seg) := by
  unfold points at hp
  split at hp
  · cases hp
  · rename_i gs hgs
    obtain ⟨ps', e, hs'⟩ := resolveAll_ids hp hsm
    have hp' : points (idTable ss.length) (idTable ns.length) s = some ps' := by
      unfold points; rw [hgs]; exact e
    rw [points_eq] at hp'
    have hl : ∀ n, (idTable n).length = n := fun n => by simp [idTable]
    obtain ⟨qs, e1, e2⟩ := parseGo_ok (by rw [hl]; exact hss) (by rw [hl]; exact hns) s.length s {} ps'
      (Nat.le_refl _) hp' hs'
    exact ⟨qs, e1, by rw [hgs, segs_of_resolve e2 e]⟩

/-- Resolving what was parsed is resolving the segment. -/
theorem resolveParsed_seg {S N : List Int} {q : Parsed} {m : Mapping} (h : resolveParsed S N q = .ok m) :
    ∃ p, q.seg.resolve S N = some p := by
  obtain ⟨gl, gc, qo⟩ := q
  cases qo with
  | none => exact ⟨_, resolve_none_iff.2 ⟨gc, nat?_iff.2 rfl, rfl⟩⟩
  | some qo =>
    obtain ⟨si, ol, oc, ni⟩ := qo
    unfold resolveParsed at h
    dsimp only at h
    split at h
    · cases h
    · rename_i name en
      split at h
      · cases h
      · rename_i src es
        have hat : ∀ {l : List Int} {i : Nat} {a : Int}, l[i]? = some a → at? l (i : Int) = some a := by
          intro l i a h
          unfold at?
          rw [if_neg (by omega)]
          simpa using h
        refine ⟨_, resolve_orig_iff.2 ⟨gc, ol, oc, src, name, nat?_iff.2 rfl, nat?_iff.2 rfl,
          nat?_iff.2 rfl, hat es, ?_, rfl⟩⟩
        cases ni with
        | none => simp only [Except.ok.injEq] at en; exact .inl ⟨rfl, en.symm⟩
        | some i =>
          dsimp only at en
          split at en
          · rename_i y hy
            simp only [Except.ok.injEq] at en
            exact .inr ⟨i, y, rfl, hat hy, en.symm⟩
          · cases en

theorem addParsed_all {S N : List Int} : ∀ {qs : List Parsed} {g g' : Generator},
    addParsed S N g qs = .ok g' → ∀ q ∈ qs, ∃ m, resolveParsed S N q = .ok m := by
  intro qs
  induction qs with
  | nil => intro g g' _ q hq; cases hq
  | cons a qs ih =>
    intro g g' h q hq
    rw [addParsed] at h
    split at h
    · cases h
    · rename_i m hm
      rcases List.mem_cons.1 hq with rfl | hq
      · exact ⟨m, hm⟩
      · exact ih h q hq

theorem resolveAll_some {S N : List Int} : ∀ {gs : List Seg}, (∀ g ∈ gs, ∃ p, g.resolve S N = some p) →
    ∃ ps, resolveAll S N gs = some ps := by
  intro gs
  induction gs with
  | nil => intro _; exact ⟨[], rfl⟩
  | cons g gs ih =>
    intro h
    obtain ⟨p, hp⟩ := h g (by simp)
    obtain ⟨ps, hps⟩ := ih fun x hx => h x (by simp [hx])
    exact ⟨p :: ps, by rw [resolveAll, hp, hps]⟩

/-- The positions of a resolved segment do not depend on the tables. -/
theorem resolve_small {S N S' N' : List Int} {g : Seg} {p q : Point} (h1 : g.resolve S N = some p)
    (h2 : g.resolve S' N' = some q) (hs : p.Small) : q.Small := by
  obtain ⟨l, c, o⟩ := g
  cases o with
  | none =>
    obtain ⟨c1, e1, rfl⟩ := resolve_none_iff.1 h1
    obtain ⟨c2, e2, rfl⟩ := resolve_none_iff.1 h2
    rw [e1] at e2; cases e2; exact hs
  | some o =>
    obtain ⟨si, ol, oc, ni⟩ := o
    obtain ⟨c1, l1, o1, a1, x1, e1, e2, e3, _, _, rfl⟩ := resolve_orig_iff.1 h1
    obtain ⟨c2, l2, o2, a2, x2, d1, d2, d3, _, _, rfl⟩ := resolve_orig_iff.1 h2
    rw [e1] at d1; rw [e2] at d2; rw [e3] at d3
    cases d1; cases d2; cases d3
    exact ⟨hs.1, fun o e => (by cases e; exact hs.2 ⟨a1, l1 + 1, o1, x1⟩ rfl)⟩

theorem resolveAll_small {S N S' N' : List Int} : ∀ {gs : List Seg} {ps qs : List Point},
    resolveAll S N gs = some ps → resolveAll S' N' gs = some qs → (∀ p ∈ ps, p.Small) →
    ∀ q ∈ qs, q.Small := by
  intro gs
  induction gs with
  | nil => intro ps qs _ h _ q hq; cases h; cases hq
  | cons g gs ih =>
    intro ps qs h1 h2 hs q hq
    rw [resolveAll] at h1 h2
    split at h1
    · rename_i p ps' hp hps
      cases h1
      split at h2
      · rename_i p2 qs' hp2 hqs
        cases h2
        rcases List.mem_cons.1 hq with rfl | hq
        · exact resolve_small hp hp2 (hs p (by simp))
        · exact ih hps hqs (fun x hx => hs x (by simp [hx])) q hq
      · cases h2
    · cases h1

/-! ## The theorem -/

/-- What a generator writes, as a multiset of points. -/
def Spec.Writes (g : Generator) (ps : List Point) : Prop :=
  ∃ m g' qs, g.toSourceMap = .ok (m, g') ∧ mapPoints m = some qs ∧ qs.Perm ps

/-- Reading with the check for repeated names: the indices select from the filtered tables. -/
theorem C32_reads_filtered (ss cs ns : List Int) (s : Str) (file : Option Int) (root : Option Str)
    (ps : List Point) (hp : points (dedup [] ss) (dedup [] ns) s = some ps) (hsm : ∀ p ∈ ps, p.Small)
    (hss : ss.length ≤ 4294967296) (hns : ns.length ≤ 4294967296) :
    ∃ g, Generator.fromSourceMap ss cs s ns file root true = .ok g ∧ Writes g ps := by
  obtain ⟨g, e, h1, h2, _, h4, _⟩ := fromSourceMap_tables (cs := cs) (ss := ss) (ns := ns) file root true
    rfl rfl hp hsm (Nat.le_trans (dedup_length _ _) hss) (Nat.le_trans (dedup_length _ _) hns)
  refine ⟨g, e, ?_⟩
  have hs : g.mappings.sort.list.Pairwise (fun a b => Mapping.le a b = true) := by
    rw [MappingList.sort_list h2]; exact sortBy_sorted _
  obtain ⟨m, e', _, _, _, hq⟩ := Generator.toSourceMap_ok h1 hs
  refine ⟨m, _, _, e', hq, (g.mappings.sort_perm.map _).trans ?_⟩
  have := h4.map Mapping.point
  rw [List.map_map] at this
  have he : ps.map (Mapping.point ∘ mappingOf) = ps := by
    conv => rhs; rw [← List.map_id ps]
    exact List.map_congr_left fun p _ => mappingOf_point p
  rwa [he] at this

/-- C32, exactly: a map is read correctly by a `SourceMapSource` (that is, with the check for repeated
names) if and only if every index it uses selects an entry before the first repetition of its
table. -/
theorem C32_exact (ss cs ns : List Int) (s : Str) (file : Option Int) (root : Option Str)
    (gs : List Seg) (ps : List Point) (hd : decode s = some gs) (hp : points ss ns s = some ps)
    (hsm : ∀ p ∈ ps, p.Small) (hss : ss.length ≤ 4294967296) (hns : ns.length ≤ 4294967296) :
    (∃ g, Generator.fromSourceMap ss cs s ns file root true = .ok g ∧ Writes g ps) ↔
      ∀ g ∈ gs, ∀ si ol oc ni, g.orig = some (si, ol, oc, ni) →
        (ss.take (si.toNat + 1)).Nodup ∧ ∀ n, ni = some n → (ns.take (n.toNat + 1)).Nodup := by
  have hp' : resolveAll ss ns gs = some ps := by
    unfold points at hp; rw [hd] at hp; exact hp
  constructor
  · rintro ⟨g, e, hw⟩
    obtain ⟨qs, e1, e2⟩ := parse_segs hp hsm hss hns
    rw [hd] at e2
    have hgs := Option.some.inj e2
    have hall : ∀ q ∈ qs, ∃ m, resolveParsed (dedup [] ss) (dedup [] ns) q = .ok m := by
      unfold Generator.fromSourceMap parseMappings at e
      rw [e1] at e
      simp only [if_true] at e
      exact fun q hq => addParsed_all e q ((sortBy_perm qs).mem_iff.2 hq)
    obtain ⟨ps2, h2⟩ := resolveAll_some (S := dedup [] ss) (N := dedup [] ns) (gs := gs) (by
      intro x hx
      rw [hgs, List.mem_map] at hx
      obtain ⟨q, hq, rfl⟩ := hx
      obtain ⟨m, hm⟩ := hall q hq
      exact resolveParsed_seg hm)
    obtain ⟨g2, e3, w2⟩ := C32_reads_filtered ss cs ns s file root ps2
      (by unfold points; rw [hd]; exact h2) (resolveAll_small hp' h2 hsm) hss hns
    rw [e] at e3; cases e3
    obtain ⟨m, g', qs1, t1, t2, t3⟩ := hw
    obtain ⟨m', g'', qs2, u1, u2, u3⟩ := w2
    rw [t1] at u1; cases u1
    rw [t2] at u2; cases u2
    have hperm : ps2.Perm ps := u3.symm.trans t3
    have := (resolveAll_weight hp' h2).2 (Nat.le_of_eq (hperm.map _).sum_nat)
    exact this
  · intro h
    exact C32_reads_filtered ss cs ns s file root ps
      (by unfold points; rw [hd]; exact (resolveAll_early h).trans hp') hsm hss hns

/-- A repetition behind everything that is used does no harm. -/
example : ∃ g, Generator.fromSourceMap [5, 6, 5, 7] [] "ACAA".toList [] none none true = .ok g ∧
    Writes g [⟨1, 0, some ⟨6, 1, 0, none⟩⟩] :=
  (C32_exact [5, 6, 5, 7] [] [] "ACAA".toList none none [⟨1, 0, some (1, 0, 0, none)⟩] _
    (by decide +kernel) (by decide +kernel) (by intro p hp; simp only [List.mem_singleton] at hp; subst hp; simp [Point.Small])
    (by decide) (by decide)).2 (by
      intro g hg si ol oc ni e
      simp only [List.mem_singleton] at hg
      subst hg
      cases e
      exact ⟨by decide, fun n e => by cases e⟩)

/-- One before it does. -/
example : ¬ ∃ g, Generator.fromSourceMap [5, 5, 6] [] "AEAA".toList [] none none true = .ok g ∧
    Writes g [⟨1, 0, some ⟨6, 1, 0, none⟩⟩] := by
  rw [C32_exact [5, 5, 6] [] [] "AEAA".toList none none [⟨1, 0, some (2, 0, 0, none)⟩] _
    (by decide +kernel) (by decide +kernel) (by intro p hp; simp only [List.mem_singleton] at hp; subst hp; simp [Point.Small])
    (by decide) (by decide)]
  intro h
  exact absurd (h _ (List.mem_singleton.2 rfl) _ _ _ _ rfl).1 (by decide)

end WS
