import Verif.Props.C15
import Verif.Props.C33
/-! # C17 Which of several segments counts, for every well-formed map -/

namespace WS
open Spec

/-- One number is smaller, or they are equal and the rest decides. -/
def Spec.thenBefore (a b : Int) (rest : Prop) : Prop := a < b ∨ a = b ∧ rest

/-- The order in which segments of one line are read: by column; at one column those without origin first,
then by index of the source, original line, original column, and index of the name, those without name
first. -/
def Spec.Seg.Before (a b : Seg) : Prop :=
  thenBefore a.col b.col <| a.orig = none ∨
    ∃ s l c n s' l' c' n', a.orig = some (s, l, c, n) ∧ b.orig = some (s', l', c', n') ∧
      thenBefore s s' (thenBefore l l' (thenBefore c c' (n = none ∨ ∃ i j, n = some i ∧ n' = some j ∧ i ≤ j)))

/-- The segment that counts at a position: the last one in that order. -/
structure Spec.Counts (gs : List Seg) (l c : Nat) (g : Seg) : Prop where
  mem : g ∈ gs
  line : g.line = l
  col : g.col ≤ c
  last : ∀ g' ∈ gs, g'.line = l → g'.col ≤ c → g'.Before g

/-! ## Proof -/

theorem compare_then_isLE {a b : Nat} {o : Ordering} (h : ((compare a b).then o).isLE = true) :
    thenBefore a b (o.isLE = true) := by
  unfold thenBefore
  rcases Nat.lt_trichotomy a b with hlt | heq | hgt
  · exact .inl (by omega)
  · subst heq
    exact .inr ⟨rfl, by simpa [Ordering.then] using h⟩
  · exfalso
    have : compare a b = .gt := Nat.compare_eq_gt.2 hgt
    rw [this] at h
    cases h

theorem Spec.thenBefore.mono {a b : Int} {p q : Prop} (h : thenBefore a b p) (hpq : p → q) : thenBefore a b q := by
  rcases h with h | ⟨h, hp⟩
  · exact .inl h
  · exact .inr ⟨h, hpq hp⟩

theorem Parsed.le_before {a b : Parsed} (h : Parsed.le a b = true) (hl : a.genLine = b.genLine) :
    a.seg.Before b.seg := by
  obtain ⟨gl, gc, o⟩ := a
  obtain ⟨gl', gc', o'⟩ := b
  dsimp only at hl
  subst hl
  unfold Parsed.le at h
  dsimp only at h
  rcases compare_then_isLE h with h | ⟨_, h⟩
  · omega
  · refine (compare_then_isLE h).mono fun h => ?_
    cases o with
    | none => exact .inl rfl
    | some o =>
      cases o' with
      | none => cases h
      | some o' =>
        obtain ⟨s, l, c, n⟩ := o
        obtain ⟨s', l', c', n'⟩ := o'
        refine .inr ⟨_, _, _, _, _, _, _, _, rfl, rfl, ?_⟩
        simp only [cmpOpt, cmpParsedOrig] at h
        refine (compare_then_isLE h).mono fun h => (compare_then_isLE h).mono fun h =>
          (compare_then_isLE h).mono fun h => ?_
        cases n with
        | none => exact .inl rfl
        | some i =>
          cases n' with
          | none => cases h
          | some j =>
            refine .inr ⟨_, _, rfl, rfl, ?_⟩
            have := Nat.isLE_compare.1 h
            show (i : Int) ≤ j
            omega

theorem resolveParsed_point {S N : List Int} {q : Parsed} {m : Mapping} (h : resolveParsed S N q = .ok m) :
    q.seg.resolve S N = some m.point := by
  obtain ⟨gl, gc, qo⟩ := q
  cases qo with
  | none => cases h; exact resolve_none_iff.2 ⟨gc, nat?_iff.2 rfl, rfl⟩
  | some qo =>
    obtain ⟨si, ol, oc, ni⟩ := qo
    unfold resolveParsed at h
    dsimp only at h
    split at h
    · cases h
    · rename_i name en
      split at h
      · cases h
      · rename_i src es
        cases h
        have hat : ∀ {l : List Int} {i : Nat} {a : Int}, l[i]? = some a → at? l (i : Int) = some a := by
          intro l i a h
          unfold at?
          rw [if_neg (by omega)]
          simpa using h
        refine resolve_orig_iff.2 ⟨gc, ol, oc, src, name, nat?_iff.2 rfl, nat?_iff.2 rfl,
          nat?_iff.2 rfl, hat es, ?_, rfl⟩
        cases ni with
        | none => simp only [Except.ok.injEq] at en; exact .inl ⟨rfl, en.symm⟩
        | some i =>
          dsimp only at en
          split at en
          · rename_i y hy
            simp only [Except.ok.injEq] at en
            exact .inr ⟨i, y, rfl, hat hy, en.symm⟩
          · cases en

theorem addParsed_points {S N : List Int} : ∀ {qs : List Parsed} {g g' : Generator},
    addParsed S N g qs = .ok g' → ∃ ps, resolveAll S N (qs.map Parsed.seg) = some ps ∧
      g'.mappings.list.map Mapping.point = g.mappings.list.map Mapping.point ++ ps
  | [], g, g', h => by cases h; exact ⟨[], rfl, by simp⟩
  | q :: qs, g, g', h => by
    rw [addParsed] at h
    split at h
    · cases h
    · rename_i m hm
      obtain ⟨ps, h1, h2⟩ := addParsed_points h
      refine ⟨m.point :: ps, by rw [List.map_cons, resolveAll, resolveParsed_point hm, h1], ?_⟩
      rw [h2, g.addMapping_mappings m, MappingList.add_list]
      simp

theorem registerSources_mappings (b : Bool) : ∀ (ss cs : List Int) (g : Generator),
    (registerSources b g ss cs).mappings = g.mappings
  | [], _, _ => rfl
  | s :: ss, cs, g => by
    rw [registerSources, registerSources_mappings b ss _ _]
    cases b <;> cases cs.head? <;> simp [Generator.setSourceContent, Generator.addSource]

theorem pointAt_last : ∀ (ps : List Point) (l c : Nat),
    (pointAt ps l c = none ∧ ∀ p ∈ ps, ¬ (p.line = l ∧ p.col ≤ c)) ∨
    ∃ a p b, ps = a ++ p :: b ∧ pointAt ps l c = some p ∧ p.line = l ∧ p.col ≤ c ∧
      ∀ q ∈ b, ¬ (q.line = l ∧ q.col ≤ c)
  | [], _, _ => .inl ⟨rfl, fun p h => by cases h⟩
  | p :: ps, l, c => by
    rcases pointAt_last ps l c with ⟨h1, h2⟩ | ⟨a, q, b, h1, h2, h3, h4, h5⟩
    · by_cases hp : p.line = l ∧ p.col ≤ c
      · exact .inr ⟨[], p, ps, rfl, by rw [pointAt, h1]; simp [hp], hp.1, hp.2, h2⟩
      · refine .inl ⟨by rw [pointAt, h1]; simp [hp], ?_⟩
        intro q hq
        rcases List.mem_cons.1 hq with rfl | hq
        · exact hp
        · exact h2 q hq
    · exact .inr ⟨p :: a, q, b, by rw [h1]; rfl, by rw [pointAt, h2], h3, h4, h5⟩

theorem resolveAll_parts {S N : List Int} : ∀ {gs : List Seg} {a b : List Point},
    resolveAll S N gs = some (a ++ b) → ∃ x y, gs = x ++ y ∧ resolveAll S N x = some a ∧
      resolveAll S N y = some b
  | gs, [], b, h => ⟨[], gs, rfl, rfl, h⟩
  | [], p :: a, b, h => by cases h
  | g :: gs, p :: a, b, h => by
    rw [resolveAll] at h
    split at h
    · rename_i p' ps' hp hps
      cases h
      obtain ⟨x, y, rfl, h1, h2⟩ := resolveAll_parts hps
      exact ⟨g :: x, y, rfl, by rw [resolveAll, hp, h1], h2⟩
    · cases h

theorem resolve_place {S N : List Int} {g : Seg} {p : Point} (h : g.resolve S N = some p) :
    g.line = p.line ∧ g.col = p.col := by
  obtain ⟨l, c, o⟩ := g
  cases o with
  | none =>
    obtain ⟨c1, e1, rfl⟩ := resolve_none_iff.1 h
    exact ⟨rfl, nat?_iff.1 e1⟩
  | some o =>
    obtain ⟨si, ol, oc, ni⟩ := o
    obtain ⟨c1, l1, o1, a1, x1, e1, _, _, _, _, rfl⟩ := resolve_orig_iff.1 h
    exact ⟨rfl, nat?_iff.1 e1⟩

/-- What a list of segments in reading order says. -/
theorem lookup_counts {S N : List Int} {qs : List Parsed} {ps : List Point}
    (hs : qs.Pairwise fun a b => Parsed.le a b = true)
    (h : resolveAll S N (qs.map Parsed.seg) = some ps) (l c : Nat) :
    ((∀ g ∈ qs.map Parsed.seg, ¬ (g.line = l ∧ g.col ≤ c)) ∧ lookup ps l c = none) ∨
    ∃ g p, Counts (qs.map Parsed.seg) l c g ∧ g.resolve S N = some p ∧ lookup ps l c = p.origin := by
  rcases pointAt_last ps l c with ⟨h1, h2⟩ | ⟨a, p, b, h1, h2, h3, h4, h5⟩
  · left
    refine ⟨?_, by unfold lookup; rw [h1]; rfl⟩
    intro g hg hlc
    have hmem : ∀ {gs : List Seg} {ps : List Point}, resolveAll S N gs = some ps → ∀ g ∈ gs,
        ∃ p ∈ ps, g.resolve S N = some p := by
      intro gs
      induction gs with
      | nil => intro ps _ g hg; cases hg
      | cons x gs ih =>
        intro ps h g hg
        rw [resolveAll] at h
        split at h
        · rename_i p ps' hp hps
          cases h
          rcases List.mem_cons.1 hg with rfl | hg
          · exact ⟨p, by simp, hp⟩
          · obtain ⟨p', hp', e⟩ := ih hps g hg
            exact ⟨p', by simp [hp'], e⟩
        · cases h
    obtain ⟨p, hp, e⟩ := hmem h g hg
    obtain ⟨k1, k2⟩ := resolve_place e
    exact h2 p hp ⟨by rw [← k1]; exact hlc.1, by omega⟩
  · right
    subst h1
    obtain ⟨x, y, e, k1, k2⟩ := resolveAll_parts h
    cases y with
    | nil => cases k2
    | cons g y =>
      rw [resolveAll] at k2
      split at k2
      · rename_i p' ps' hp hps
        cases k2
        obtain ⟨q1, q2, rfl, rfl, e2⟩ := List.map_eq_append_iff.1 e
        obtain ⟨q, q3, rfl, rfl, rfl⟩ := List.map_eq_cons_iff.1 e2
        obtain ⟨k3, k4⟩ := resolve_place hp
        refine ⟨_, p, ⟨by simp, k3.trans h3, by omega, ?_⟩, hp, by unfold lookup; rw [h2]; rfl⟩
        intro g' hg' hl' hc'
        rw [List.mem_map] at hg'
        obtain ⟨q', hq', rfl⟩ := hg'
        have hline : q'.genLine = q.genLine := by
          have : q'.genLine + 1 = q.genLine + 1 := hl'.trans (h3.symm.trans k3.symm)
          omega
        rcases List.mem_append.1 hq' with hq' | hq'
        · exact Parsed.le_before ((List.pairwise_append.1 hs).2.2 q' hq' q (by simp)) hline
        · rcases List.mem_cons.1 hq' with rfl | hq'
          · exact Parsed.le_before ((Parsed.le_total q' q').elim id id) rfl
          · exfalso
            obtain ⟨p'', hp''⟩ := resolveAll_mem hps q'.seg (List.mem_map.2 ⟨q', hq', rfl⟩)
            have : p'' ∈ b := by
              have hmem : ∀ {gs : List Seg} {ps : List Point}, resolveAll S N gs = some ps → ∀ g ∈ gs,
                  ∀ p, g.resolve S N = some p → p ∈ ps := by
                intro gs
                induction gs with
                | nil => intro ps _ g hg; cases hg
                | cons x gs ih =>
                  intro ps h g hg p hp
                  rw [resolveAll] at h
                  split at h
                  · rename_i p' ps' hp' hps
                    cases h
                    rcases List.mem_cons.1 hg with rfl | hg
                    · rw [hp'] at hp; cases hp; simp
                    · simp [ih hps g hg p hp]
                  · cases h
              exact hmem hps q'.seg (List.mem_map.2 ⟨q', hq', rfl⟩) p'' hp''
            obtain ⟨k5, k6⟩ := resolve_place hp''
            exact h5 p'' this ⟨by rw [← k5]; exact hl', by omega⟩
      · cases k2

/-- C17 for every well-formed map that can be read (`C33_columns_exact`: the others trap): after any
history, `sourceAndMap()` of a `SourceMapSource` that was given the code `v` and a map without an inner map
returns `v` and a map that says of every character what the segment says that counts at its place, with
indices taken into the arrays without repetitions. -/
theorem C17_exact (ops : List Op) (h : Heap) (hrun : run ops = .ok h)
    (hst : ∀ op ∈ ops, Spec.Op.StableMap op) (i : Nat) (v : Str) (vi name : Int) (d : SmData)
    (orig : Option Int) (hc : (created ops)[i]? = some (.newSms v vi name ⟨some d, none⟩ orig none))
    (hw : WellFormed ⟨some d, none⟩) (ho : CountsOnce ⟨some d, none⟩) (gs : List Seg)
    (hd : decode d.mappings = some gs) (module_ : Bool) (file : Option Int) :
    ∃ r h' qs, apiSourceAndMap h i true module_ file = .ok (r, h') ∧ r.source = v ∧
      mapPoints r.map = some qs ∧
      ∀ k, k < v.length →
        let l := (posAfter (v.take k)).1
        let c := (posAfter (v.take k)).2
        ((∀ g ∈ gs, ¬ (g.line = l ∧ g.col ≤ c)) ∧ lookup qs l c = none) ∨
        ∃ g p, Counts gs l c g ∧ g.resolve d.sources.eraseDups d.names.eraseDups = some p ∧
          lookup qs l c = p.origin := by
  obtain ⟨A, hA, H⟩ := run_abs hrun
  have S := stable_of_ops hA hst
  have hobj := object_of_created hA hc
  obtain ⟨ps, hp, hsm, hl1, hl2⟩ := hw.2.1 d rfl
  have hp' : resolveAll d.sources d.names gs = some ps := by
    unfold points at hp; rw [hd] at hp; exact hp
  obtain ⟨ps2, e2⟩ := resolveAll_some (S := dedup [] d.sources) (N := dedup [] d.names) (gs := gs) (by
    intro g hg
    obtain ⟨p, hp⟩ := resolveAll_mem hp' g hg
    refine (resolve_others hp).2 ?_
    rw [dedup_eraseDups, dedup_eraseDups]
    exact ho rfl d rfl gs hd g hg)
  obtain ⟨g, hgen, k1, _, _, k4, k5, _⟩ := fromSourceMap_tables (cs := d.contents) (ss := d.sources)
    (ns := d.names) none none true rfl rfl (by unfold points; rw [hd]; exact e2) (resolveAll_small hp' e2 hsm)
    (Nat.le_trans (dedup_length _ _) hl1) (Nat.le_trans (dedup_length _ _) hl2)
  -- the mappings in reading order
  obtain ⟨qs0, e1, e3⟩ := parse_segs hp hsm hl1 hl2
  rw [hd] at e3
  have hgs := Option.some.inj e3
  have hlist : resolveAll (dedup [] d.sources) (dedup [] d.names) ((sortBy Parsed.le qs0).map Parsed.seg) =
      some (g.mappings.list.map Mapping.point) := by
    unfold Generator.fromSourceMap parseMappings at hgen
    rw [e1] at hgen
    simp only [if_true] at hgen
    obtain ⟨ps3, m1, m2⟩ := addParsed_points hgen
    rw [registerSources_mappings] at m2
    rw [m2, m1]
    simp [Generator.new, MappingList.new]
  obtain ⟨n, hn, htext, hattr, hleaf⟩ := fromString_attr v g k5 k1.valid
  obtain ⟨r, qs, hr, hq, hqa, _, hsrc⟩ := C09_attribution_partial n file none hleaf
  have hnode : (Tree.sms (Sms.create v vi name ⟨some d, none⟩ orig none)).node true module_ = .ok n := by
    simp only [Tree.node, Sms.node, Sms.create, SmHolder.getGen, hgen, hn, Except.map]
  obtain ⟨h', _, e⟩ := api_sourceAndMap_columns S H (.sms hobj) hnode hr
  refine ⟨r, h', qs, e, hsrc.trans htext, hq, fun k hk => ?_⟩
  have hm : n.marks.map Prod.fst = v := by rw [SmNode.marks_text, htext]
  have hsame := attributes_unique hattr hqa k (by
    have := congrArg List.length hm; simp at this; omega)
  rw [hm] at hsame
  dsimp only
  rw [hsame]
  have hperm : ∀ x : Seg, x ∈ (sortBy Parsed.le qs0).map Parsed.seg ↔ x ∈ gs := by
    intro x
    rw [hgs, List.mem_map, List.mem_map]
    exact ⟨fun ⟨q, h1, h2⟩ => ⟨q, (sortBy_perm qs0).mem_iff.1 h1, h2⟩,
      fun ⟨q, h1, h2⟩ => ⟨q, (sortBy_perm qs0).mem_iff.2 h1, h2⟩⟩
  rcases lookup_counts (sortBy_pairwise Parsed.le_total Parsed.le_trans qs0) hlist (posAfter (v.take k)).1 (posAfter (v.take k)).2 with
    ⟨h1, h2⟩ | ⟨x, p, h1, h2, h3⟩
  · exact .inl ⟨fun x hx => h1 x ((hperm x).2 hx), h2⟩
  · refine .inr ⟨x, p, ⟨(hperm x).1 h1.mem, h1.line, h1.col, fun x' hx' => h1.last x' ((hperm x').2 hx')⟩, ?_, h3⟩
    rwa [dedup_eraseDups, dedup_eraseDups] at h2

/-! Non-trivial case: two segments at one position in the wrong order, columns that go backwards, a repeated
source with an index behind it. -/

def C17_mixed : SmData := ⟨[1, 1, 2], [], [], "ACCA,AADA,EACC,FADD".toList⟩

def C17_mixedSegs : List Seg :=
  [⟨1, 0, some (1, 1, 0, none)⟩, ⟨1, 0, some (1, 0, 0, none)⟩, ⟨1, 2, some (1, 1, 1, none)⟩,
   ⟨1, 0, some (1, 0, 0, none)⟩]

def C17_mixedHistory : List Op :=
  [.newRaw "x".toList, .newSms "abcd\ne".toList 5 6 ⟨some C17_mixed, none⟩ none none, .node 1 true true]

example : (run C17_mixedHistory).toOption.isSome = true ∧
    (∀ op ∈ C17_mixedHistory, Spec.Op.StableMap op) ∧
    (created C17_mixedHistory)[1]? = some (.newSms "abcd\ne".toList 5 6 ⟨some C17_mixed, none⟩ none none) ∧
    WellFormed ⟨some C17_mixed, none⟩ ∧ CountsOnce ⟨some C17_mixed, none⟩ := by
  have hp : points C17_mixed.sources C17_mixed.names C17_mixed.mappings = some [⟨1, 0, some ⟨1, 2, 0, none⟩⟩,
      ⟨1, 0, some ⟨1, 1, 0, none⟩⟩, ⟨1, 2, some ⟨1, 2, 1, none⟩⟩, ⟨1, 0, some ⟨1, 1, 0, none⟩⟩] := by decide +kernel
  refine ⟨by decide +kernel, ?_, rfl, ⟨.inl rfl, ?_, fun g h => by cases h⟩, ?_⟩
  · intro op hop
    simp only [C17_mixedHistory, List.mem_cons, List.not_mem_nil, or_false] at hop
    rcases hop with rfl | rfl | rfl <;> simp [Spec.Op.StableMap]
  · rintro d ⟨⟩
    refine ⟨_, hp, ?_, by decide, by decide⟩
    intro p hp
    simp only [List.mem_cons, List.not_mem_nil, or_false] at hp
    rcases hp with rfl | rfl | rfl | rfl <;> simp [Point.Small]
  · rintro _ d ⟨⟩ gs hgs g hg si ol oc ni e
    have hd : decode C17_mixed.mappings = some C17_mixedSegs := by decide +kernel
    rw [hd] at hgs; cases hgs
    simp only [C17_mixedSegs, List.mem_cons, List.not_mem_nil, or_false] at hg
    rcases hg with rfl | rfl | rfl | rfl <;> cases e <;> exact ⟨by decide +kernel, fun n h => by cases h⟩

/-- The first segment counts for the first two characters, though others at its place come after it. -/
example : Counts C17_mixedSegs 1 1 ⟨1, 0, some (1, 1, 0, none)⟩ ∧
    Seg.resolve C17_mixed.sources.eraseDups C17_mixed.names.eraseDups ⟨1, 0, some (1, 1, 0, none)⟩ =
      some ⟨1, 0, some ⟨2, 2, 0, none⟩⟩ := by
  refine ⟨⟨by decide, rfl, by decide, ?_⟩, by decide +kernel⟩
  intro g hg _ hc
  simp only [C17_mixedSegs, List.mem_cons, List.not_mem_nil, or_false] at hg
  rcases hg with rfl | rfl | rfl | rfl
  · exact .inr ⟨rfl, .inr ⟨_, _, _, _, _, _, _, _, rfl, rfl, .inr ⟨rfl, .inr ⟨rfl, .inr ⟨rfl, .inl rfl⟩⟩⟩⟩⟩
  · exact .inr ⟨rfl, .inr ⟨_, _, _, _, _, _, _, _, rfl, rfl, .inr ⟨rfl, .inl (by decide)⟩⟩⟩
  · exact absurd hc (by decide)
  · exact .inr ⟨rfl, .inr ⟨_, _, _, _, _, _, _, _, rfl, rfl, .inr ⟨rfl, .inl (by decide)⟩⟩⟩

example : ((run C17_mixedHistory).toOption.bind fun h =>
      (apiSourceAndMap h 1 true true none).toOption.map fun r => (r.1.source, mapPoints r.1.map)) =
    some ("abcd\ne".toList, some [⟨1, 0, some ⟨2, 2, 0, none⟩⟩, ⟨1, 2, some ⟨2, 2, 1, none⟩⟩]) := by decide +kernel

end WS
