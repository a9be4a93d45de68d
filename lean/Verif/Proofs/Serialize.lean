import Verif.Proofs.Decode
import Verif.Proofs.Sort
import Verif.Spec.Generator
/-! # What `serialize_mappings` writes decodes to the mapping list -/

namespace WS
open Spec

/-- A table value ↦ index as the code keeps it: indices count up, no value twice. -/
def Table (t : List (Int × Nat)) : Prop :=
  (∀ (k : Nat) (p : Int × Nat), t[k]? = some p → p.2 = k) ∧ (t.map Prod.fst).Nodup

theorem lookup_mem {β : Type _} : ∀ {t : List (Int × β)} {s : Int} {i : β},
    t.lookup s = some i → (s, i) ∈ t := by
  intro t
  induction t with
  | nil => intro s i h; cases h
  | cons p t ih =>
    intro s i h
    obtain ⟨a, b⟩ := p
    rw [List.lookup_cons] at h
    split at h
    · rename_i he
      have : s = a := by simpa using he
      subst this; cases h; simp
    · exact List.mem_cons_of_mem _ (ih h)

theorem lookup_isSome {β : Type _} {t : List (Int × β)} {s : Int} :
    (t.lookup s).isSome = true ↔ s ∈ t.map Prod.fst := by
  induction t with
  | nil => simp
  | cons p t ih =>
    obtain ⟨a, b⟩ := p
    rw [List.lookup_cons]
    by_cases h : s = a
    · subst h; simp
    · rw [List.map_cons, List.mem_cons]
      simp only [h, false_or]
      rw [← ih]
      have : (s == a) = false := by simpa using h
      simp [this]

theorem Table.get {t : List (Int × Nat)} (h : Table t) {s : Int} {i : Nat}
    (hl : t.lookup s = some i) : (t.map Prod.fst)[i]? = some s := by
  have := lookup_mem hl
  obtain ⟨k, hk⟩ := List.getElem?_of_mem this
  have hi := h.1 k _ hk
  simp only at hi
  subst hi
  rw [List.getElem?_map, hk]; rfl

theorem Table.insert {t : List (Int × Nat)} (h : Table t) (s : Int) :
    Table (amOrInsert t s t.length) := by
  unfold amOrInsert
  split
  · exact h
  · rename_i hn
    have hmem : s ∉ t.map Prod.fst := by
      rw [← lookup_isSome, hn]; simp
    refine ⟨fun k p hk => ?_, ?_⟩
    · rcases Nat.lt_or_ge k t.length with hl | hl
      · rw [List.getElem?_append_left hl] at hk
        exact h.1 k p hk
      · rw [List.getElem?_append_right hl] at hk
        cases hd : k - t.length with
        | zero => rw [hd] at hk; cases hk; simp only; omega
        | succ n => rw [hd] at hk; cases hk
    · rw [List.map_append, List.nodup_append]
      refine ⟨h.2, by simp, ?_⟩
      intro a ha b hb
      simp at hb
      subst hb
      intro he; subst he; exact hmem ha

theorem mem_insert {β : Type _} {t : List (Int × β)} {s a : Int} {v : β} :
    a ∈ (amOrInsert t s v).map Prod.fst ↔ a ∈ t.map Prod.fst ∨ a = s := by
  unfold amOrInsert
  split
  · rename_i b hb
    have : s ∈ t.map Prod.fst := lookup_isSome.1 (by rw [hb]; rfl)
    constructor
    · exact .inl
    · rintro (h | rfl)
      · exact h
      · exact this
  · simp [or_comm]

/-- Decode the rest of a mappings string and look the indices up. -/
def pointsMid (ss ns : List Int) (l : Nat) (a : Acc) (s : Str) : Option (List Point) :=
  (decodeMid l a s).bind (resolveAll ss ns)

theorem points_eq (ss ns : List Int) (s : Str) : points ss ns s = pointsMid ss ns 1 {} s := by
  unfold points pointsMid
  rw [decode_eq]
  cases decodeMid 1 {} s <;> rfl

theorem pointsMid_seg {ss ns : List Int} {l : Nat} {a b : Acc} {x : Str} {y : Seg} {p : Point}
    (hx : ',' ∉ x ∧ ';' ∉ x) (hr : readSeg l a x = some ([y], b)) (hp : y.resolve ss ns = some p)
    (s : Str) (hs : AtSep s) :
    pointsMid ss ns l a (x ++ s) = (pointsMid ss ns l b s).map (p :: ·) := by
  unfold pointsMid
  rw [decodeMid_seg hx hr s hs]
  cases decodeMid l b s with
  | none => rfl
  | some ys =>
    simp only [Option.map_some, Option.bind_some, List.singleton_append, resolveAll, hp]
    cases resolveAll ss ns ys <;> rfl

theorem pointsMid_comma {ss ns : List Int} {l : Nat} {a : Acc} (s : Str) :
    pointsMid ss ns l a (',' :: s) = pointsMid ss ns l a s := by
  rw [pointsMid, decodeMid_comma]; rfl

theorem pointsMid_lines {ss ns : List Int} (n l : Nat) (a : Acc) (s : Str) :
    pointsMid ss ns l a (List.replicate n ';' ++ s) =
      pointsMid ss ns (l + n) (if n = 0 then a else { a with col := 0 }) s := by
  rw [pointsMid, decodeMid_lines]; rfl

theorem pointsMid_nil {ss ns : List Int} (l : Nat) (a : Acc) :
    pointsMid ss ns l a [] = some [] := by
  simp [pointsMid, decodeMid_nil, resolveAll]

/-- The reader's numbers corresponding to the writer's state. -/
def SerState.acc (st : SerState) : Acc :=
  { col := st.gen.2, source := st.source, line := st.orig.1, origCol := st.orig.2, name := st.name }

/-- Generated positions do not decrease. -/
def GenLe (a b : Mapping) : Prop :=
  a.generated.1 < b.generated.1 ∨ (a.generated.1 = b.generated.1 ∧ a.generated.2 ≤ b.generated.2)

theorem toUsize_of_nat {n : Nat} (h : n < 4294967296) : toUsize (n : Int) = n := by
  unfold toUsize; omega

theorem at?_nat (l : List Int) (i : Nat) : at? l (i : Int) = l[i]? := by
  unfold at?
  rw [if_neg (by omega)]; simp

theorem nat?_nat (i : Nat) : nat? (i : Int) = some i := by
  unfold nat?
  rw [if_neg (by omega)]; simp

theorem serFields_ok {sources names : List (Int × Nat)} (hs : Table sources) (hn : Table names)
    (st : SerState) (m : Mapping) (hm : m.Valid) (hg : m.generated.1 = st.gen.1)
    (hsrc : ∀ s, m.source = some s → s ∈ sources.map Prod.fst)
    (hnm : ∀ n, m.name = some n → n ∈ names.map Prod.fst) :
    ∃ x st', serFields sources names st m = .ok (x, st') ∧ st'.gen = m.generated ∧
      (',' ∉ x ∧ ';' ∉ x) ∧ x ≠ [] ∧
      ∃ y, readSeg st.gen.1 st.acc x = some ([y], st'.acc) ∧
        y.resolve (sources.map Prod.fst) (names.map Prod.fst) = some m.point := by
  obtain ⟨⟨gl, gc⟩, src, nm, orig⟩ := m
  simp only at hg hsrc hnm
  obtain ⟨h1, h2⟩ := hm
  simp only at h1 h2
  have hcol : (st.gen.2 : Int) + ((gc : Int) - st.gen.2) = gc := by omega
  have hne : ∀ v s, vlqEncode v ++ s ≠ [] := by
    intro v s h
    have := List.append_eq_nil_iff.1 h
    have h3 := vlqEncode_fields v
    rw [this.1] at h3; cases h3
  cases src with
  | none =>
    cases orig with
    | some o => exact absurd h2 (by simp)
    | none =>
      refine ⟨_, _, rfl, ?_, sep_of_fields (vlqEncode_fields _), ?_, ⟨st.gen.1, gc, none⟩, ?_, ?_⟩
      · simp [hg]
      · have := hne ((gc : Int) - st.gen.2) []
        simpa using this
      · simp only [readSeg, vlqEncode_fields, SerState.acc, hcol]
      · simp [Seg.resolve, nat?_nat, Mapping.point, hg]
  | some s =>
    cases orig with
    | none => exact absurd h2 (by simp)
    | some o =>
      obtain ⟨ol, oc⟩ := o
      simp only at h2
      obtain ⟨si, hsi⟩ := Option.isSome_iff_exists.1 (lookup_isSome.2 (hsrc s rfl))
      have hol : (ol : Int) - 1 = ((ol - 1 : Nat) : Int) := by omega
      have hus : toUsize ((ol : Int) - 1) = ol - 1 := by rw [hol, toUsize_of_nat (by omega)]
      have e1 : (st.source : Int) + ((si : Int) - st.source) = si := by omega
      have e2 : (st.orig.1 : Int) + ((ol : Int) - 1 - st.orig.1) = ((ol - 1 : Nat) : Int) := by omega
      have e3 : (st.orig.2 : Int) + ((oc : Int) - st.orig.2) = oc := by omega
      have e4 : ol - 1 + 1 = ol := by omega
      cases nm with
      | none =>
        have hf := fields_encode ((gc : Int) - st.gen.2) _ _ (fields_encode ((si : Int) - st.source) _ _
          (fields_encode ((ol : Int) - 1 - st.orig.1) _ _ (vlqEncode_fields ((oc : Int) - st.orig.2))))
        refine ⟨_, _, by simp only [serFields, hsi]; rfl, ?_, ?_, ?_, ?_⟩
        · simp [hg]
        · simp only [List.append_assoc]; exact sep_of_fields hf
        · simp only [List.append_assoc]; exact hne _ _
        · refine ⟨⟨st.gen.1, gc, some (si, (ol - 1 : Nat), oc, none)⟩, ?_, ?_⟩
          · simp only [List.append_assoc, readSeg, hf, SerState.acc, hcol, e1, e2, e3, hus]
          · simp [Seg.resolve, nat?_nat, Mapping.point, hg, at?_nat]
            have := hs.get hsi
            rw [List.getElem?_map] at this
            rw [this]
            simp [e4]
      | some n =>
        obtain ⟨ni, hni⟩ := Option.isSome_iff_exists.1 (lookup_isSome.2 (hnm n rfl))
        have e5 : (st.name : Int) + ((ni : Int) - st.name) = ni := by omega
        have hf := fields_encode ((gc : Int) - st.gen.2) _ _ (fields_encode ((si : Int) - st.source) _ _
          (fields_encode ((ol : Int) - 1 - st.orig.1) _ _ (fields_encode ((oc : Int) - st.orig.2) _ _
            (vlqEncode_fields ((ni : Int) - st.name)))))
        refine ⟨_, _, by simp only [serFields, hsi, hni]; rfl, ?_, ?_, ?_, ?_⟩
        · simp [hg]
        · simp only [List.append_assoc]; exact sep_of_fields hf
        · simp only [List.append_assoc]; exact hne _ _
        · refine ⟨⟨st.gen.1, gc, some (si, (ol - 1 : Nat), oc, some ni)⟩, ?_, ?_⟩
          · simp only [List.append_assoc, readSeg, hf, SerState.acc, hcol, e1, e2, e3, e5, hus]
          · simp [Seg.resolve, nat?_nat, Mapping.point, hg, at?_nat]
            have := hs.get hsi
            rw [List.getElem?_map] at this
            rw [this]
            have := hn.get hni
            rw [List.getElem?_map] at this
            simp only
            rw [this]
            simp [e4]

theorem serLoop_ok {sources names : List (Int × Nat)} (hs : Table sources) (hn : Table names) :
    ∀ (ms : List Mapping) (st : SerState) (notFirst : Bool),
      (∀ m ∈ ms, m.Valid) → (∀ m ∈ ms, st.gen.1 ≤ m.generated.1) →
      ms.Pairwise (fun a b => a.generated.1 ≤ b.generated.1) →
      (∀ m ∈ ms, ∀ s, m.source = some s → s ∈ sources.map Prod.fst) →
      (∀ m ∈ ms, ∀ n, m.name = some n → n ∈ names.map Prod.fst) →
      ∃ s, serLoop sources names notFirst st ms = .ok s ∧ (notFirst = true → AtSep s) ∧
        pointsMid (sources.map Prod.fst) (names.map Prod.fst) st.gen.1 st.acc s =
          some (ms.map Mapping.point) := by
  intro ms
  induction ms with
  | nil =>
    intro st notFirst _ _ _ _ _
    exact ⟨[], rfl, fun _ => trivial, by rw [pointsMid_nil]; rfl⟩
  | cons m ms ih =>
    intro st notFirst hv hge hpw hsrc hnm
    have hge0 := hge m (by simp)
    rw [List.pairwise_cons] at hpw
    have hsep : ∃ sep st1, serSep st notFirst m = .ok (sep, st1) ∧ st1.gen.1 = m.generated.1 ∧
        (∀ x, x ≠ [] → notFirst = true → AtSep (sep ++ x)) ∧
        ∀ x, pointsMid (sources.map Prod.fst) (names.map Prod.fst) st.gen.1 st.acc (sep ++ x) =
          pointsMid (sources.map Prod.fst) (names.map Prod.fst) st1.gen.1 st1.acc x := by
      unfold serSep
      by_cases h : m.generated.1 = st.gen.1
      · rw [if_neg (by simpa using h)]
        refine ⟨_, _, rfl, h.symm, ?_, ?_⟩
        · intro x _ hnf; simp [hnf, AtSep]
        · intro x
          cases notFirst
          · rfl
          · exact pointsMid_comma x
      · rw [if_pos h, if_neg (by omega)]
        refine ⟨_, _, rfl, rfl, ?_, ?_⟩
        · intro x _ _
          obtain ⟨k, hk⟩ : ∃ k, m.generated.1 - st.gen.1 = k + 1 := ⟨_, (Nat.sub_add_cancel (by omega)).symm⟩
          rw [hk, List.replicate_succ]
          exact .inr rfl
        · intro x
          rw [pointsMid_lines, if_neg (by omega)]
          congr 1
          · simp only; omega
    obtain ⟨sep, st1, e1, hg1, hat, hp1⟩ := hsep
    obtain ⟨x, st2, e2, hg2, hx, hxne, y, hy, hr⟩ := serFields_ok hs hn st1 m (hv m (by simp)) hg1.symm
      (hsrc m (by simp)) (hnm m (by simp))
    obtain ⟨r, e3, hatr, hp3⟩ := ih st2 true (fun a ha => hv a (by simp [ha]))
      (fun a ha => by rw [hg2]; exact hpw.1 a ha) hpw.2 (fun a ha => hsrc a (by simp [ha]))
      (fun a ha => hnm a (by simp [ha]))
    refine ⟨sep ++ x ++ r, ?_, ?_, ?_⟩
    · simp only [serLoop, e1, e2, e3]
    · intro hnf
      rw [List.append_assoc]
      exact hat _ (by simp [hxne]) hnf
    · rw [List.append_assoc, hp1, pointsMid_seg hx hy hr r (hatr rfl)]
      rw [show st1.gen.1 = st2.gen.1 by rw [hg1, hg2], hp3]
      rfl

end WS
