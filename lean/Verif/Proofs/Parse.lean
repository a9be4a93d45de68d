import Verif.Proofs.Generator
/-! # Reading a mappings string (`parse_mappings`, `from_source_map`) -/

namespace WS
open Spec

theorem readSegs_none {l : Nat} {a : Acc} {x : Str} (h : readSeg l a x = none) (ss : List Str) :
    readSegs l a (x :: ss) = none := by rw [readSegs, h]

theorem decodeMid_seg_bind {l : Nat} {a : Acc} {x : Str} (hx : ',' ∉ x ∧ ';' ∉ x) (s : Str)
    (hs : AtSep s) :
    decodeMid l a (x ++ s) = (readSeg l a x).bind fun p => (decodeMid l p.2 s).map (p.1 ++ ·) := by
  cases hr : readSeg l a x with
  | some p => obtain ⟨y, b⟩ := p; exact decodeMid_seg hx hr s hs
  | none =>
    simp only [Option.bind_none]
    cases s with
    | nil =>
      rw [List.append_nil, decodeMid, cut_of_not_mem hx.2]
      simp only [cut_of_not_mem hx.1, readSegs_none hr, Option.bind_none]
    | cons c s =>
      rcases hs with rfl | rfl
      · obtain ⟨z, ls, h1, h2⟩ := cut_append hx.2 (',' :: s)
        have hz : ∃ z', z = ',' :: z' := by
          rw [cut, if_neg (by decide)] at h1
          cases h : cut ';' s with
          | nil => exact absurd h (cut_ne_nil _ _)
          | cons w ws => rw [h] at h1; cases h1; exact ⟨_, rfl⟩
        obtain ⟨z', rfl⟩ := hz
        unfold decodeMid
        rw [h2]
        simp only
        rw [cut_append_sep hx.1, readSegs_none hr]
        rfl
      · unfold decodeMid
        rw [cut_append_sep hx.2]
        simp only [cut_of_not_mem hx.1, readSegs_none hr, Option.bind_none]

/-- Split off the part before the first separator. -/
theorem split_seg (s : Str) : ∃ x r, s = x ++ r ∧ (',' ∉ x ∧ ';' ∉ x) ∧ AtSep r := by
  induction s with
  | nil => exact ⟨[], [], rfl, by simp, trivial⟩
  | cons c s ih =>
    by_cases hc : c = ',' ∨ c = ';'
    · exact ⟨[], c :: s, rfl, by simp, hc⟩
    · obtain ⟨x, r, rfl, hx, hr⟩ := ih
      refine ⟨c :: x, r, rfl, ?_, hr⟩
      simp only [not_or] at hc
      simp only [List.mem_cons, not_or]
      exact ⟨⟨fun h => hc.1 h.symm, hx.1⟩, fun h => hc.2 h.symm, hx.2⟩

/-- The mapping that says a point. -/
def mappingOf (p : Point) : Mapping :=
  { generated := (p.line, p.col)
    source := p.origin.map (·.source)
    name := p.origin.bind (·.name)
    original := p.origin.map fun o => (o.line, o.col) }

theorem mappingOf_point (p : Point) : (mappingOf p).point = p := by
  obtain ⟨l, c, o⟩ := p
  cases o <;> rfl

theorem point_mappingOf {m : Mapping} (h : m.Valid) : mappingOf m.point = m := by
  obtain ⟨g, s, n, o⟩ := m
  obtain ⟨_, h⟩ := h
  cases s <;> cases o <;> simp_all [Mapping.point, mappingOf]

/-- The reader's state for given numbers. -/
def accOf (st : ParseState) : Acc :=
  { col := st.genCol, source := st.source, line := st.origLine, origCol := st.origCol,
    name := st.name }

theorem readRel_ok {prev n : Nat} {s : Str} {x : Int} {xs : List Int} {t : Str}
    (h : fields s = some (x :: xs)) (hn : (prev : Int) + x = n) (hl : n ≤ 4294967295) :
    ∃ rest, fields rest = some xs ∧ readRel prev (s ++ t) = some (n, rest ++ t) := by
  obtain ⟨rest, h1, _, _, h4⟩ := vlqDecode_fields h
  refine ⟨rest, h1, ?_⟩
  unfold readRel
  rw [h4 t]
  simp only
  rw [if_neg (by omega), hn]
  simp

theorem atSep_iff (s : Str) : atSep s = true ↔ AtSep s := by
  cases s with
  | nil => simp [atSep, AtSep]
  | cons c s => simp [atSep, AtSep, or_comm]

theorem atSep_digits {s t : Str} {x : Int} {xs : List Int} (h : fields s = some (x :: xs)) :
    atSep (s ++ t) = false := by
  cases s with
  | nil => cases h
  | cons c s =>
    have := sep_of_fields h
    simp only [List.mem_cons, not_or] at this
    simp only [List.cons_append, atSep, Bool.or_eq_false_iff, beq_eq_false_iff_ne, ne_eq]
    exact ⟨fun h => this.2.1 h.symm, fun h => this.1.1 h.symm⟩

theorem at?_some {l : List Int} {i s : Int} (h : at? l i = some s) :
    ∃ n : Nat, i = n ∧ l[n]? = some s := by
  unfold at? at h
  split at h
  · cases h
  · exact ⟨i.toNat, by omega, h⟩

theorem nat?_some {i : Int} {n : Nat} (h : nat? i = some n) : i = n := by
  unfold nat? at h
  split at h
  · cases h
  · cases h; omega

/-- One segment. -/
theorem parseOne_ok {ss ns : List Int} (hss : ss.length ≤ 4294967296) (hns : ns.length ≤ 4294967296)
    {st : ParseState} {x r : Str} (hx : x ≠ []) (hr : AtSep r) {y : List Seg} {b : Acc}
    (hrs : readSeg (st.genLine + 1) (accOf st) x = some (y, b)) {ps : List Point}
    (hres : resolveAll ss ns y = some ps) (hsm : ∀ p ∈ ps, p.Small) :
    ∃ q st' p, parseOne st (x ++ r) = some (q, st', r) ∧ ps = [p] ∧ accOf st' = b ∧
      st'.genLine = st.genLine ∧ resolveParsed ss ns q = .ok (mappingOf p) := by
  have hsep : atSep r = true := (atSep_iff r).2 hr
  unfold readSeg at hrs
  split at hrs
  · rename_i hf; exact absurd (fields_eq_nil hf) hx
  · -- one number
    rename_i c hf
    cases hrs
    simp only [resolveAll, Seg.resolve] at hres
    cases hc : nat? ((accOf st).col + c) with
    | none => rw [hc] at hres; cases hres
    | some gc =>
      rw [hc] at hres
      cases hres
      have hgc := nat?_some hc
      have hsmall := (hsm _ (List.mem_singleton.2 rfl)).1
      simp only at hsmall
      obtain ⟨r1, f1, e1⟩ := readRel_ok (t := r) hf hgc hsmall
      have : r1 = [] := fields_eq_nil f1
      subst this
      refine ⟨⟨st.genLine, gc, none⟩, { st with genCol := gc }, _, ?_, rfl, ?_, rfl, rfl⟩
      · simp only [parseOne, e1, List.nil_append, hsep, if_true]
      · simp only [accOf] at hgc ⊢
        rw [hgc]
  · -- four numbers
    rename_i c s ol oc hf
    cases hrs
    simp only [resolveAll, Seg.resolve] at hres
    cases hc : nat? ((accOf st).col + c) with
    | none => rw [hc] at hres; cases hres
    | some gc =>
    cases hs : at? ss ((accOf st).source + s) with
    | none => simp only [hc, hs] at hres; cases hres
    | some src =>
    cases hl : nat? ((accOf st).line + ol) with
    | none => simp only [hc, hs, hl] at hres; cases hres
    | some gl =>
    cases ho : nat? ((accOf st).origCol + oc) with
    | none => simp only [hc, hs, hl, ho] at hres; cases hres
    | some go =>
      simp only [hc, hs, hl, ho] at hres
      cases hres
      have hgc := nat?_some hc
      obtain ⟨si, hsi, hget⟩ := at?_some hs
      have hgl := nat?_some hl
      have hgo := nat?_some ho
      have hsmall := hsm _ (List.mem_singleton.2 rfl)
      have hsm2 := hsmall.2 _ rfl
      have hsm1 := hsmall.1
      simp only at hsm1 hsm2
      have hsil : si < ss.length := (List.getElem?_eq_some_iff.1 hget).1
      obtain ⟨r1, f1, e1⟩ := readRel_ok (t := r) hf hgc hsm1
      obtain ⟨r2, f2, e2⟩ := readRel_ok (t := r) f1 hsi (by omega)
      obtain ⟨r3, f3, e3⟩ := readRel_ok (t := r) f2 hgl (by omega)
      obtain ⟨r4, f4, e4⟩ := readRel_ok (t := r) f3 hgo hsm2.2
      have : r4 = [] := fields_eq_nil f4
      subst this
      refine ⟨⟨st.genLine, gc, some (si, gl, go, none)⟩,
        { st with genCol := gc, source := si, origLine := gl, origCol := go }, _, ?_, rfl, ?_, rfl, ?_⟩
      · simp only [parseOne, e1, atSep_digits f1, e2, e3, e4, List.nil_append, hsep, if_true]
        simp
      · simp only [accOf] at hgc hsi hgl hgo ⊢
        rw [hgc, hsi, hgl, hgo]
      · simp only [resolveParsed, hget]
        rfl
  · -- five numbers
    rename_i c s ol oc n hf
    cases hrs
    simp only [resolveAll, Seg.resolve] at hres
    cases hc : nat? ((accOf st).col + c) with
    | none => rw [hc] at hres; cases hres
    | some gc =>
    cases hs : at? ss ((accOf st).source + s) with
    | none => simp only [hc, hs] at hres; cases hres
    | some src =>
    cases hl : nat? ((accOf st).line + ol) with
    | none => simp only [hc, hs, hl] at hres; cases hres
    | some gl =>
    cases ho : nat? ((accOf st).origCol + oc) with
    | none => simp only [hc, hs, hl, ho] at hres; cases hres
    | some go =>
    cases hn : at? ns ((accOf st).name + n) with
    | none => simp only [hc, hs, hl, ho, hn] at hres; cases hres
    | some nm =>
      simp only [hc, hs, hl, ho, hn] at hres
      cases hres
      have hgc := nat?_some hc
      obtain ⟨si, hsi, hget⟩ := at?_some hs
      obtain ⟨ni, hni, hgetn⟩ := at?_some hn
      have hgl := nat?_some hl
      have hgo := nat?_some ho
      have hsmall := hsm _ (List.mem_singleton.2 rfl)
      have hsm2 := hsmall.2 _ rfl
      have hsm1 := hsmall.1
      simp only at hsm1 hsm2
      have hsil : si < ss.length := (List.getElem?_eq_some_iff.1 hget).1
      have hnil : ni < ns.length := (List.getElem?_eq_some_iff.1 hgetn).1
      obtain ⟨r1, f1, e1⟩ := readRel_ok (t := r) hf hgc hsm1
      obtain ⟨r2, f2, e2⟩ := readRel_ok (t := r) f1 hsi (by omega)
      obtain ⟨r3, f3, e3⟩ := readRel_ok (t := r) f2 hgl (by omega)
      obtain ⟨r4, f4, e4⟩ := readRel_ok (t := r) f3 hgo hsm2.2
      obtain ⟨r5, f5, e5⟩ := readRel_ok (t := r) f4 hni (by omega)
      have : r5 = [] := fields_eq_nil f5
      subst this
      refine ⟨⟨st.genLine, gc, some (si, gl, go, some ni)⟩,
        { st with genCol := gc, source := si, origLine := gl, origCol := go, name := ni }, _, ?_, rfl,
        ?_, rfl, ?_⟩
      · simp only [parseOne, e1, atSep_digits f1, e2, e3, e4, atSep_digits f4, e5, List.nil_append]
        simp
      · simp only [accOf] at hgc hsi hgl hgo hni ⊢
        rw [hgc, hsi, hgl, hgo, hni]
      · simp only [resolveParsed, hget, hgetn]
        rfl
  · cases hrs

theorem resolveAll_append {ss ns : List Int} : ∀ {y z : List Seg} {ps : List Point},
    resolveAll ss ns (y ++ z) = some ps →
    ∃ p q, resolveAll ss ns y = some p ∧ resolveAll ss ns z = some q ∧ ps = p ++ q := by
  intro y
  induction y with
  | nil => intro z ps h; exact ⟨[], ps, rfl, h, rfl⟩
  | cons s y ih =>
    intro z ps h
    rw [List.cons_append, resolveAll] at h
    cases hs : s.resolve ss ns with
    | none => rw [hs] at h; cases h
    | some a =>
      cases hr : resolveAll ss ns (y ++ z) with
      | none => rw [hs, hr] at h; cases h
      | some b =>
        rw [hs, hr] at h
        cases h
        obtain ⟨p, q, h1, h2, rfl⟩ := ih hr
        exact ⟨a :: p, q, by simp only [resolveAll, hs, h1], h2, rfl⟩

/-- The parser reads what the specification reads. -/
theorem parseGo_ok {ss ns : List Int} (hss : ss.length ≤ 4294967296) (hns : ns.length ≤ 4294967296) :
    ∀ (fuel : Nat) (s : Str) (st : ParseState) (ps : List Point), s.length ≤ fuel →
      pointsMid ss ns (st.genLine + 1) (accOf st) s = some ps → (∀ p ∈ ps, p.Small) →
      ∃ qs, parseGo fuel st s = some qs ∧
        qs.map (resolveParsed ss ns) = ps.map fun p => .ok (mappingOf p) := by
  intro fuel
  induction fuel with
  | zero =>
    intro s st ps hl hp _
    have : s = [] := List.eq_nil_of_length_eq_zero (by omega)
    subst this
    rw [pointsMid_nil] at hp; cases hp
    exact ⟨[], rfl, rfl⟩
  | succ fuel ih =>
    intro s st ps hl hp hsm
    cases s with
    | nil => rw [pointsMid_nil] at hp; cases hp; exact ⟨[], rfl, rfl⟩
    | cons c cs =>
      simp only [List.length_cons] at hl
      by_cases h1 : c = ';'
      · subst h1
        rw [pointsMid, decodeMid_line] at hp
        obtain ⟨qs, e, he⟩ := ih cs { st with genLine := st.genLine + 1, genCol := 0 } ps (by omega) hp hsm
        exact ⟨qs, by rw [parseGo, if_pos rfl]; exact e, he⟩
      · by_cases h2 : c = ','
        · subst h2
          rw [pointsMid, decodeMid_comma] at hp
          obtain ⟨qs, e, he⟩ := ih cs st ps (by omega) hp hsm
          exact ⟨qs, by rw [parseGo, if_neg (by decide), if_pos rfl]; exact e, he⟩
        · obtain ⟨x, r, hxr, hx, hr⟩ := split_seg (c :: cs)
          have hxne : x ≠ [] := by
            rintro rfl
            rw [List.nil_append] at hxr
            subst hxr
            rcases hr with h | h
            · exact h2 h
            · exact h1 h
          rw [pointsMid, hxr, decodeMid_seg_bind hx r hr] at hp
          cases hrs : readSeg (st.genLine + 1) (accOf st) x with
          | none => rw [hrs] at hp; cases hp
          | some yb =>
            obtain ⟨y, b⟩ := yb
            rw [hrs] at hp
            simp only [Option.bind_some] at hp
            cases hd : decodeMid (st.genLine + 1) b r with
            | none => rw [hd] at hp; cases hp
            | some zs =>
              rw [hd] at hp
              simp only [Option.map_some, Option.bind_some] at hp
              obtain ⟨ps1, ps2, hp1, hp2, rfl⟩ := resolveAll_append hp
              obtain ⟨q, st', p, e1, rfl, hacc, hline, hq⟩ := parseOne_ok hss hns hxne hr hrs hp1
                (fun p hp => hsm p (by simp [hp]))
              have hlen : r.length < (c :: cs).length := by
                rw [hxr, List.length_append]
                have : 0 < x.length := List.length_pos_iff.2 hxne
                omega
              simp only [List.length_cons] at hlen
              obtain ⟨qs, e2, hqs⟩ := ih r st' ps2 (by omega)
                (by rw [hline, hacc, pointsMid, hd]; exact hp2) (fun p hp => hsm p (by simp [hp]))
              refine ⟨q :: qs, ?_, ?_⟩
              · rw [parseGo, if_neg h1, if_neg h2, hxr, e1]
                simp only [e2]
              · simp [hq, hqs]

theorem Parsed.le_iff_gen {a b : Parsed} (h : Parsed.le a b = true) :
    a.genLine < b.genLine ∨ (a.genLine = b.genLine ∧ a.genCol ≤ b.genCol) := by
  unfold Parsed.le at h
  rcases Nat.lt_trichotomy a.genLine b.genLine with h1 | h1 | h1
  · exact .inl h1
  · right
    refine ⟨h1, ?_⟩
    rw [h1] at h
    rcases Nat.lt_trichotomy a.genCol b.genCol with h2 | h2 | h2
    · omega
    · omega
    · have e2 : compare a.genCol b.genCol = .gt := Nat.compare_eq_gt.2 h2
      simp [e2] at h
  · have e1 : compare a.genLine b.genLine = .gt := Nat.compare_eq_gt.2 h1
    simp [e1] at h

instance : Std.TransCmp cmpParsedOrig := by
  have : cmpParsedOrig = compareLex (compareOn (·.1)) (compareLex (compareOn (·.2.1))
    (compareLex (compareOn (·.2.2.1)) (fun a b => cmpOpt compare a.2.2.2 b.2.2.2))) := by
    funext a b; rfl
  rw [this]
  haveI : Std.TransCmp (fun a b : Nat × Nat × Nat × Option Nat => cmpOpt compare a.2.2.2 b.2.2.2) :=
    transCmp_pull (fun a : Nat × Nat × Nat × Option Nat => a.2.2.2)
  infer_instance

theorem Parsed.cmp_lex : (fun a b : Parsed => (compare a.genLine b.genLine).then <|
    (compare a.genCol b.genCol).then <| cmpOpt cmpParsedOrig a.original b.original) =
    compareLex (compareOn (·.genLine)) (compareLex (compareOn (·.genCol))
      (fun a b => cmpOpt cmpParsedOrig a.original b.original)) := by
  funext a b; rfl

instance : Std.TransCmp (fun a b : Parsed => (compare a.genLine b.genLine).then <|
    (compare a.genCol b.genCol).then <| cmpOpt cmpParsedOrig a.original b.original) := by
  rw [Parsed.cmp_lex]
  haveI : Std.TransCmp (fun a b : Parsed => cmpOpt cmpParsedOrig a.original b.original) :=
    transCmp_pull (fun a : Parsed => a.original)
  infer_instance

theorem Parsed.le_total (a b : Parsed) : Parsed.le a b = true ∨ Parsed.le b a = true := by
  have := Std.OrientedCmp.eq_swap (cmp := fun a b : Parsed => (compare a.genLine b.genLine).then <|
    (compare a.genCol b.genCol).then <| cmpOpt cmpParsedOrig a.original b.original) (a := b) (b := a)
  unfold Parsed.le
  rw [this]
  cases ((compare a.genLine b.genLine).then <|
    (compare a.genCol b.genCol).then <| cmpOpt cmpParsedOrig a.original b.original) <;> simp

theorem Parsed.le_trans (a b c : Parsed) (h₁ : Parsed.le a b = true) (h₂ : Parsed.le b c = true) :
    Parsed.le a c = true :=
  Std.TransCmp.isLE_trans (cmp := fun a b : Parsed => (compare a.genLine b.genLine).then <|
    (compare a.genCol b.genCol).then <| cmpOpt cmpParsedOrig a.original b.original) h₁ h₂

/-! ## From parsed mappings to a generator -/

theorem resolveParsed_valid {ss ns : List Int} {q : Parsed} {p : Point}
    (h : resolveParsed ss ns q = .ok (mappingOf p)) (hs : p.Small) : (mappingOf p).Valid := by
  obtain ⟨l, c, o⟩ := p
  unfold resolveParsed at h
  split at h
  · simp only [Except.ok.injEq, mappingOf, Mapping.mk.injEq, Prod.mk.injEq] at h
    obtain ⟨⟨h1, _⟩, h2, h3, h4⟩ := h
    cases o with
    | some o => cases h2
    | none => exact ⟨by simp [mappingOf]; omega, rfl⟩
  · split at h
    · cases h
    · split at h
      · cases h
      · simp only [Except.ok.injEq, mappingOf, Mapping.mk.injEq, Prod.mk.injEq] at h
        obtain ⟨⟨h1, _⟩, h2, h3, h4⟩ := h
        cases o with
        | none => cases h2
        | some o =>
          simp only [Option.map_some, Option.some.injEq, Prod.mk.injEq] at h4
          exact ⟨by simp [mappingOf]; omega, by
            have := (hs.2 o rfl).1
            simp [mappingOf]; omega⟩

theorem resolveParsed_gen {ss ns : List Int} {q : Parsed} {m : Mapping}
    (h : resolveParsed ss ns q = .ok m) : m.generated = (q.genLine + 1, q.genCol) := by
  unfold resolveParsed at h
  split at h
  · cases h; rfl
  · split at h
    · cases h
    · split at h
      · cases h
      · cases h; rfl

theorem resolveParsed_src {ss ns : List Int} {q : Parsed} {m : Mapping}
    (h : resolveParsed ss ns q = .ok m) : ∀ s, m.source = some s → s ∈ ss := by
  intro s hs
  unfold resolveParsed at h
  split at h
  · cases h; cases hs
  · split at h
    · cases h
    · split at h
      · cases h
      · rename_i hg
        cases h; cases hs
        exact List.mem_of_getElem? hg

theorem addParsed_ok {ss ns : List Int} : ∀ (qs : List Parsed) (ms : List Mapping) (g : Generator),
    qs.map (resolveParsed ss ns) = ms.map (fun m => .ok m) → (∀ m ∈ ms, m.Valid) →
    g.Ok → g.mappings.Truthful → g.mappings.LastMax →
    ∃ g', addParsed ss ns g qs = .ok g' ∧ g'.Ok ∧ g'.mappings.Truthful ∧ g'.mappings.LastMax ∧
      g'.mappings.list = g.mappings.list ++ ms ∧
      ((∀ s ∈ ss, s ∈ g.sources.map Prod.fst) → g'.sources = g.sources) ∧
      g'.contents = g.contents ∧ g'.file = g.file ∧ g'.sourceRoot = g.sourceRoot := by
  intro qs
  induction qs with
  | nil =>
    intro ms g h _ h1 h2 h3
    cases ms with
    | nil => exact ⟨g, rfl, h1, h2, h3, by simp, fun _ => rfl, rfl, rfl, rfl⟩
    | cons m ms => cases h
  | cons q qs ih =>
    intro ms g h hv h1 h2 h3
    cases ms with
    | nil => cases h
    | cons m ms =>
      simp only [List.map_cons, List.cons.injEq] at h
      have hadd := MappingList.add_inv h2 h3 m
      have hmap := g.addMapping_mappings m
      obtain ⟨g', e, k1, k2, k3, k4, k5, k6, k7, k8⟩ := ih ms (g.addMapping m) h.2
        (fun x hx => hv x (by simp [hx])) (Generator.addMapping_ok h1 (hv m (by simp)))
        (by rw [hmap]; exact hadd.1) (by rw [hmap]; exact hadd.2)
      have hsame : (∀ s ∈ ss, s ∈ g.sources.map Prod.fst) → (g.addMapping m).sources = g.sources := by
        intro hss
        rw [g.addMapping_sources]
        have := resolveParsed_src h.1
        cases hm : m.source with
        | none => rfl
        | some s =>
          have hin := hss s (this s hm)
          have hl : (g.sources.lookup s).isSome = true := lookup_isSome.2 hin
          simp only [amOrInsert]
          cases hx : g.sources.lookup s with
          | none => rw [hx] at hl; cases hl
          | some _ => rfl
      have hrest : (g.addMapping m).contents = g.contents ∧ (g.addMapping m).file = g.file ∧
          (g.addMapping m).sourceRoot = g.sourceRoot := by
        obtain ⟨gen, s, n, o⟩ := m
        cases s <;> cases n <;> exact ⟨rfl, rfl, rfl⟩
      refine ⟨g', by rw [addParsed, h.1]; exact e, k1, k2, k3, ?_, fun hss => ?_,
        k6.trans hrest.1, k7.trans hrest.2.1, k8.trans hrest.2.2⟩
      · rw [k4, hmap, MappingList.add_list]; simp
      · rw [k5 (by rw [hsame hss]; exact hss), hsame hss]

theorem dedup_of_nodup : ∀ (l seen : List Int), l.Nodup → (∀ a ∈ l, a ∉ seen) → dedup seen l = l := by
  intro l
  induction l with
  | nil => intro _ _ _; rfl
  | cons a l ih =>
    intro seen h1 h2
    rw [List.nodup_cons] at h1
    rw [dedup, if_neg (h2 a (by simp)), ih _ h1.2]
    intro b hb
    simp only [List.mem_cons, not_or]
    exact ⟨fun h => h1.1 (h ▸ hb), h2 b (by simp [hb])⟩

theorem amRemove_of_none {β : Type} {t : List (Int × β)} {s : Int} (h : t.lookup s = none) :
    amRemove t s = t := by
  have : s ∉ t.map Prod.fst := by rw [← lookup_isSome, h]; simp
  unfold amRemove
  rw [List.filter_eq_self]
  intro p hp
  simp only [ne_eq, bne_iff_ne]
  rintro rfl
  exact this (List.mem_map_of_mem hp)

theorem registerSources_fields (cd : Bool) : ∀ (ss cs : List Int) (g : Generator),
    (registerSources cd g ss cs).names = g.names ∧
    (registerSources cd g ss cs).mappings = g.mappings ∧
    (registerSources cd g ss cs).file = g.file ∧
    (registerSources cd g ss cs).sourceRoot = g.sourceRoot ∧
    (cd = false → (registerSources cd g ss cs).sources = g.sources) ∧
    (g.Ok → (registerSources cd g ss cs).Ok) := by
  intro ss
  induction ss with
  | nil => intro cs g; exact ⟨rfl, rfl, rfl, rfl, fun _ => rfl, id⟩
  | cons s ss ih =>
    intro cs g
    rw [registerSources]
    obtain ⟨h1, h2, h3, h4, h5, h6⟩ :=
      ih cs.tail ((if cd then g.addSource s else g).setSourceContent s cs.head?)
    obtain ⟨f1, f2, f3⟩ := (if cd then g.addSource s else g).setContent_fields s cs.head?
    refine ⟨h1.trans (f2.trans ?_), h2.trans (f3.trans ?_), h3.trans ?_, h4.trans ?_,
      fun hc => (h5 hc).trans (f1.trans ?_), fun hg => h6 (Generator.setContent_ok ?_ _ _)⟩
    · cases cd <;> rfl
    · cases cd <;> rfl
    · cases cd <;> cases cs.head? <;> rfl
    · cases cd <;> cases cs.head? <;> rfl
    · subst hc; rfl
    · cases cd
      · exact hg
      · exact Generator.addSource_ok hg s

/-- Different sources: all are registered, in order, with their contents. -/
theorem registerSources_tables (cd : Bool) : ∀ (ss cs : List Int) (g : Generator), ss.Nodup →
    (∀ s ∈ ss, s ∉ g.sources.map Prod.fst ∧ s ∉ g.contents.map Prod.fst) →
    (cd = true → (registerSources cd g ss cs).sources.map Prod.fst = g.sources.map Prod.fst ++ ss) ∧
    (registerSources cd g ss cs).contents = g.contents ++ ss.zip cs := by
  intro ss
  induction ss with
  | nil => intro cs g _ _; simp [registerSources]
  | cons s ss ih =>
    intro cs g hnd hin
    rw [List.nodup_cons] at hnd
    rw [registerSources]
    obtain ⟨f1, _, _⟩ := (if cd then g.addSource s else g).setContent_fields s cs.head?
    have hsl : g.sources.lookup s = none := by
      cases h : g.sources.lookup s with
      | none => rfl
      | some v => exact absurd (lookup_isSome.1 (by rw [h]; rfl)) (hin s (by simp)).1
    have hcl : g.contents.lookup s = none := by
      cases h : g.contents.lookup s with
      | none => rfl
      | some v => exact absurd (lookup_isSome.1 (by rw [h]; rfl)) (hin s (by simp)).2
    have hsrc : ((if cd then g.addSource s else g).setSourceContent s cs.head?).sources.map Prod.fst =
        g.sources.map Prod.fst ++ (if cd then [s] else []) := by
      rw [f1]
      cases cd
      · simp
      · simp [Generator.addSource, amOrInsert, hsl]
    have hcon : ((if cd then g.addSource s else g).setSourceContent s cs.head?).contents =
        g.contents ++ [s].zip cs := by
      have : (if cd then g.addSource s else g).contents = g.contents := by cases cd <;> rfl
      cases cs with
      | nil =>
        simp only [List.head?_nil, Generator.setSourceContent, List.zip_nil_right, List.append_nil]
        rw [this, amRemove_of_none hcl]
      | cons c cs =>
        simp only [List.head?_cons, Generator.setSourceContent, this, amOrInsert, hcl]
        rfl
    obtain ⟨h1, h2⟩ := ih cs.tail ((if cd then g.addSource s else g).setSourceContent s cs.head?) hnd.2
      (by
        intro x hx
        have hxs : x ≠ s := fun h => hnd.1 (h ▸ hx)
        have := hin x (by simp [hx])
        rw [hsrc, hcon]
        constructor
        · cases cd
          · simpa using this.1
          · simp only [if_true, List.mem_append, List.mem_singleton, not_or]; exact ⟨this.1, hxs⟩
        · cases cs with
          | nil => simpa using this.2
          | cons c cs => 
            simp only [List.zip_cons_cons, List.zip_nil_left, List.map_append, List.map_cons,
              List.map_nil, List.mem_append, List.mem_singleton, not_or]
            exact ⟨this.2, hxs⟩)
    constructor
    · intro hc
      rw [h1 hc, hsrc, hc]; simp
    · rw [h2, hcon]
      cases cs <;> simp

/-- Reading a map: the indices select from the tables `S` and `N` the reader made. -/
theorem fromSourceMap_tables {ss cs ns S N : List Int} {s : Str} {ps : List Point} (file : Option Int)
    (root : Option Str) (cd : Bool) (hd1 : (if cd then dedup [] ss else ss) = S)
    (hd2 : (if cd then dedup [] ns else ns) = N)
    (hp : points S N s = some ps) (hsm : ∀ p ∈ ps, p.Small)
    (hss : S.length ≤ 4294967296) (hns : N.length ≤ 4294967296) :
    ∃ g, Generator.fromSourceMap ss cs s ns file root cd = .ok g ∧ g.Ok ∧ g.mappings.Truthful ∧
      g.mappings.LastMax ∧ g.mappings.list.Perm (ps.map mappingOf) ∧
      (g.mappings.list.map Mapping.point).Pairwise Point.Le ∧
      g.file = file ∧ g.sourceRoot = root ∧
      (cd = true → ss.Nodup → g.sources.map Prod.fst = ss) ∧ (ss.Nodup → g.contents = ss.zip cs) := by
  rw [points_eq] at hp
  obtain ⟨qs, e, hq⟩ := parseGo_ok hss hns s.length s {} ps (Nat.le_refl _) hp hsm
  obtain ⟨r1, r2, r3, r4, r5, r6⟩ := registerSources_fields cd ss cs (Generator.new file root true)
  have hperm := (sortBy_perm (le := Parsed.le) qs)
  have hsorted := sortBy_pairwise (le := Parsed.le) Parsed.le_total Parsed.le_trans qs
  have hall : ∀ q ∈ qs, ∃ p ∈ ps, resolveParsed S N q = .ok (mappingOf p) := by
    intro q hqm
    have : resolveParsed S N q ∈ qs.map (resolveParsed S N) := List.mem_map_of_mem hqm
    rw [hq, List.mem_map] at this
    obtain ⟨p, h1, h2⟩ := this
    exact ⟨p, h1, h2.symm⟩
  -- the mappings in the sorted order
  have hms : ∃ ms : List Mapping, (sortBy Parsed.le qs).map (resolveParsed S N) =
      ms.map (fun m => .ok m) ∧ ms.Perm (ps.map mappingOf) := by
    have hp' := hperm.map (resolveParsed S N)
    have key : ∀ l : List Parsed, (∀ q ∈ l, q ∈ qs) →
        ∃ ms : List Mapping, l.map (resolveParsed S N) = ms.map (fun m => .ok m) := by
      intro l
      induction l with
      | nil => intro _; exact ⟨[], rfl⟩
      | cons q l ih =>
        intro h
        obtain ⟨ms, hms⟩ := ih (fun x hx => h x (by simp [hx]))
        obtain ⟨p, _, hpq⟩ := hall q (h q (by simp))
        exact ⟨mappingOf p :: ms, by simp [hpq, hms]⟩
    obtain ⟨ms, hms⟩ := key (sortBy Parsed.le qs) (fun q h => hperm.mem_iff.1 h)
    refine ⟨ms, hms, ?_⟩
    rw [hms, hq] at hp'
    have h2 := hp'.filterMap (fun r => match r with | .ok m => some m | .error _ => none)
    simpa [List.filterMap_map, Function.comp_def] using h2
  obtain ⟨ms, hms, hmp⟩ := hms
  have hv : ∀ m ∈ ms, m.Valid := by
    intro m hm
    have : (Except.ok m : M Mapping) ∈ (sortBy Parsed.le qs).map (resolveParsed S N) := by
      rw [hms]; exact List.mem_map_of_mem (f := fun m => (Except.ok m : M Mapping)) hm
    obtain ⟨q, h1, h2⟩ := List.mem_map.1 this
    obtain ⟨p, hpm, h3⟩ := hall q (hperm.mem_iff.1 h1)
    rw [h3] at h2; cases h2
    exact resolveParsed_valid h3 (hsm p hpm)
  obtain ⟨g, k0, k1, k2, k3, k4, k5, k6, k7, k8⟩ := addParsed_ok (sortBy Parsed.le qs) ms
    (registerSources cd (Generator.new file root true) ss cs) hms hv
    (r6 (Generator.new_ok _ _ _)) (by rw [r2]; exact fun _ => List.Pairwise.nil)
    (by rw [r2]; rfl)
  have hlist : g.mappings.list = ms := by rw [k4, r2]; rfl
  have htab := registerSources_tables cd ss cs (Generator.new file root true)
  refine ⟨g, ?_, k1, k2, k3, hlist ▸ hmp, ?_, k7.trans r3, k8.trans r4, fun hc hn => ?_, fun hn => ?_⟩
  · unfold Generator.fromSourceMap parseMappings
    rw [e]
    simp only [hd1, hd2]
    exact k0
  · rw [hlist]
    have h1 : ((sortBy Parsed.le qs).map (resolveParsed S N)).Pairwise (fun a b =>
        ∀ x y, a = .ok x → b = .ok y → Point.Le x.point y.point) := by
      rw [List.pairwise_map]
      refine hsorted.imp ?_
      intro a b hab x y hx hy
      have e1 := resolveParsed_gen hx
      have e2 := resolveParsed_gen hy
      have := Parsed.le_iff_gen hab
      simp only [Point.Le, Mapping.point, e1, e2]
      omega
    rw [hms, List.pairwise_map] at h1
    rw [List.pairwise_map]
    exact h1.imp fun h => h _ _ rfl rfl
  · have hs := (htab hn (by simp [Generator.new])).1 hc
    have hs' : (registerSources cd (Generator.new file root true) ss cs).sources.map Prod.fst = ss := by
      rw [hs]; simp [Generator.new]
    rw [k5 (by
      rw [hs', ← hd1]
      intro x hx
      rwa [hc, if_pos rfl, dedup_of_nodup _ _ hn (by simp)] at hx), hs']
  · rw [k6, (htab hn (by simp [Generator.new])).2]; simp [Generator.new]

/-- Reading a map without repeated names. -/
theorem fromSourceMap_ok {ss cs ns : List Int} {s : Str} {ps : List Point} (file : Option Int)
    (root : Option Str) (cd : Bool) (hp : points ss ns s = some ps) (hsm : ∀ p ∈ ps, p.Small)
    (hss : ss.length ≤ 4294967296) (hns : ns.length ≤ 4294967296)
    (hnd : cd = true → ss.Nodup ∧ ns.Nodup) :
    ∃ g, Generator.fromSourceMap ss cs s ns file root cd = .ok g ∧ g.Ok ∧ g.mappings.Truthful ∧
      g.mappings.LastMax ∧ g.mappings.list.Perm (ps.map mappingOf) ∧
      (g.mappings.list.map Mapping.point).Pairwise Point.Le ∧
      g.file = file ∧ g.sourceRoot = root ∧
      (cd = true → g.sources.map Prod.fst = ss) ∧ (ss.Nodup → g.contents = ss.zip cs) := by
  have hd1 : (if cd then dedup [] ss else ss) = ss := by
    cases cd
    · rfl
    · exact dedup_of_nodup _ _ (hnd rfl).1 (by simp)
  have hd2 : (if cd then dedup [] ns else ns) = ns := by
    cases cd
    · rfl
    · exact dedup_of_nodup _ _ (hnd rfl).2 (by simp)
  obtain ⟨g, h1, h2, h3, h4, h5, h6, h7, h8, h9, h10⟩ :=
    fromSourceMap_tables (cs := cs) file root cd hd1 hd2 hp hsm hss hns
  exact ⟨g, h1, h2, h3, h4, h5, h6, h7, h8, fun hc => h9 hc (hnd hc).1, h10⟩

end WS
