import Verif.Props.C87Wasm
/-!
# C87: every map settles after two readings

With the arithmetic of the wasm build, without a condition on files: what a rendering writes names only files of its own
table, so that after reading and rendering it no file is missing.
-/

namespace WS
open Spec

/-- What one line writes names files of the table. -/
theorem one_within {N : Nat} (h32 : N ≤ 2 ^ 32) (x : TLine) (c : MapCtx) (a : Int × Int) (prev : At) (hl : Lined x.1)
    (hu : c.unfinished = 0) (T : Tabled c) (ha : low a.1 = c.source) (hp : prev ≠ none → c.source < N)
    (hlen : (lineMapping32 prev c x).2.sources.length ≤ N) (hb : ∀ s o k, x.2 = some (s, o, k) → k < 2 ^ 32) :
    ∃ seg xss, (lineMapping32 prev c x).1 = seg ++ List.replicate (numberOfLines x.1) ';' ∧ ';' ∉ seg ∧
      leads (cut ',' seg) = some xss ∧ (∀ o, firstSums a xss = some o → low o.1 < N) ∧
      (Ended x.1 → low (xss.foldl summed a).1 = (lineMapping32 prev c x).2.source ∧
        (lineMapping32 prev c x).2.unfinished = 0 ∧ (nextOf32 x.2 ≠ none → (lineMapping32 prev c x).2.source < N)) ∧
      Tabled (lineMapping32 prev c x).2 := by
  obtain ⟨l, x⟩ := x
  dsimp only at hl hb ⊢
  by_cases h0 : l = []
  · subst h0
    rw [empty_line32 c hu]
    refine ⟨[], [[]], rfl, by simp, rfl, fun o h => by simp [firstSums] at h, ?_, T⟩
    rintro ⟨x, hx, -⟩
    simp at hx
  cases x with
  | none =>
    have hc : ∀ p d, lineMapping32 p d (l, none) = lineMapping d (l, none) := fun _ _ => rfl
    rw [hc, code_line hu hl] at hlen ⊢
    refine ⟨_, if unfinishedLines l = 0 then [[]] else [[0]], rfl, ?_, ?_, ?_, ?_, ?_⟩
    · split <;> simp
    · split <;> decide +kernel
    · intro o h
      split at h <;> simp [firstSums] at h
    · rintro ⟨y, rfl, hy⟩
      rw [(nl_facts hy).1]
      exact ⟨ha, rfl, fun h => absurd rfl h⟩
    · exact ⟨T.bound, T.nodup⟩
  | some x =>
    obtain ⟨s, o, k⟩ := x
    have hk := hb s o k rfl
    cases hg : goesOn prev s k with
    | true =>
      obtain ⟨o0, hprev⟩ := goesOn_iff.1 hg
      have hs : c.source < N := hp (by rw [hprev]; simp)
      have hm : lineMapping32 prev c (l, some (s, o, k)) = ("AACA".toList ++ List.replicate (numberOfLines l) ';',
          { c with unfinished := unfinishedLines l, origLine := k }) := by
        simp only [lineMapping32, if_neg h0, hg, if_true]
      rw [hm]
      refine ⟨_, [[0, 0, 1]], rfl, by decide, by decide +kernel, ?_, ?_, ⟨T.bound, T.nodup⟩⟩
      · intro o h
        simp [firstSums, summed] at h
        rw [← h]
        simpa [ha] using hs
      · rintro ⟨y, rfl, hy⟩
        rw [(nl_facts hy).1]
        refine ⟨by simp [summed, ha], rfl, fun _ => hs⟩
    | false =>
      obtain ⟨he, hT⟩ := T.ensured s o
      obtain ⟨e1, e2, e3, e4, e5⟩ := ensured_same he
      generalize hc : c.ensureSource s o = p at *
      obtain ⟨i, c'⟩ := p
      dsimp only at he hT e1 e2 e3 e4 e5
      rw [source_line32 hu hl h0 hg hk hc e1 e2 e3] at hlen ⊢
      dsimp only at hlen
      obtain ⟨f1, f2⟩ := firstSeg_leads c i k
      have hi : i < N := by omega
      have a1 : low (a.1 + ((i : Int) - c.source)) = i := by
        rw [← ha]; unfold low; omega
      refine ⟨_, _, rfl, f1, f2, ?_, ?_, ⟨hT.bound, hT.nodup⟩⟩
      · intro o h
        simp [firstSums, summed] at h
        rw [← h]
        simpa [a1] using hi
      · rintro ⟨y, rfl, hy⟩
        rw [(nl_facts hy).1]
        refine ⟨by simpa [summed] using a1, rfl, fun _ => hi⟩

/-- What lines write names files of the table. -/
theorem lines_within {N : Nat} (h32 : N ≤ 2 ^ 32) : ∀ (L : List TLine) (c : MapCtx) (a : Int × Int) (prev : At), L ≠ [] →
    CodeLines (L.map Prod.fst) → c.unfinished = 0 → Tabled c → low a.1 = c.source → (prev ≠ none → c.source < N) →
    (linesMapping32 prev c L).2.sources.length ≤ N → (∀ l s o k, (l, some (s, o, k)) ∈ L → k < 2 ^ 32) →
    ∃ n, Each (fun m xss => leads (cut ',' m) = some xss) (splitDrop ';' (linesMapping32 prev c L).1) n ∧
      (∀ o, some o ∈ lineSums a n → low o.1 < N) ∧ (splitDrop ';' (linesMapping32 prev c L).1).length = L.length
  | [], _, _, _, h, _, _, _, _, _, _, _ => absurd rfl h
  | [x], c, a, prev, _, hls, hu, T, ha, hp, hlen, hb => by
    obtain ⟨seg, xss, g1, g2, g3, g4, -, -⟩ := one_within h32 x c a prev (CodeLines.lined hls) hu T ha hp hlen
      (fun s o k e => hb x.1 s o k (by rw [← e]; simp))
    have hz : numberOfLines x.1 = 0 := List.count_eq_zero.2 hls
    rw [hz, List.replicate_zero, List.append_nil] at g1
    have hd : splitDrop ';' (linesMapping32 prev c [x]).1 = [seg] := by
      rw [linesMapping32, linesMapping32, List.append_nil, g1, splitDrop_of_not_mem g2]
    refine ⟨[xss], ?_, ?_, ?_⟩
    · rw [hd]
      exact .cons g3 .nil
    · intro o h
      simp only [lineSums, List.mem_singleton] at h
      exact g4 o h.symm
    · rw [hd]; rfl
  | x :: y :: L, c, a, prev, _, hls, hu, T, ha, hp, hlen, hb => by
    have hend : Ended x.1 := hls.cons.1
    have hmono : (lineMapping32 prev c x).2.sources.length ≤ (linesMapping32 prev c (x :: y :: L)).2.sources.length := by
      have := linesMapping32_tabled [x] prev c T
      exact (linesMapping32_tabled (y :: L) (nextOf32 x.2) (lineMapping32 prev c x).2 this.1).2
    obtain ⟨seg, xss, g1, g2, g3, g4, g5, g6⟩ := one_within h32 x c a prev (.inl hend) hu T ha hp
      (Nat.le_trans hmono hlen) (fun s o k e => hb x.1 s o k (by rw [← e]; simp))
    obtain ⟨k1, k2, k3⟩ := g5 hend
    obtain ⟨n, n1, n2, n3⟩ := lines_within h32 (y :: L) (lineMapping32 prev c x).2
      (xss.foldl summed a) (nextOf32 x.2) (by simp) hls.cons.2 k2 g6 k1 k3
      hlen (fun l s o k h => hb l s o k (List.mem_cons_of_mem _ h))
    have h1 : numberOfLines x.1 = 1 := by
      obtain ⟨z, hz, hz'⟩ := hend
      rw [hz]; exact (nl_facts hz').2
    rw [h1] at g1
    have hd : splitDrop ';' (linesMapping32 prev c (x :: y :: L)).1 =
        seg :: splitDrop ';' (linesMapping32 (nextOf32 x.2) (lineMapping32 prev c x).2 (y :: L)).1 := by
      rw [linesMapping32, g1]
      dsimp only
      rw [List.append_assoc]
      change splitDrop ';' (seg ++ ';' :: (linesMapping32 (nextOf32 x.2) (lineMapping32 prev c x).2 (y :: L)).1) = _
      rw [splitDrop_append_sep g2]
    refine ⟨xss :: n, ?_, ?_, by rw [hd, List.length_cons, n3]; rfl⟩
    · rw [hd]
      exact .cons g3 n1
    · intro o h
      rw [lineSums] at h
      rcases List.mem_cons.1 h with h | h
      · exact g4 o h.symm
      · exact n2 o h

/-- No file is missing if the numbers name files of the table. -/
theorem readTLines32_found {S C : List Int} : ∀ (ls : List Str) (a : Int × Int) (n : List (List (List Int)))
    (prev : At), (∀ o, some o ∈ lineSums a n → low o.1 < S.length) → (∀ o k, prev ≠ some (none, o, k)) →
    ∀ l o k, (l, some (none, o, k)) ∉ readTLines32 S C a n prev ls
  | [], _, _, _, _, _, _, _, _, h => by simp [readTLines32] at h
  | l :: ls, a, n, prev, hn, hp, l', o, k, h => by
    have hr : ∀ o k, readLine S C a (n.headD []) prev l ≠ some (none, o, k) := by
      intro o k h
      unfold readLine at h
      rcases Option.or_eq_some_iff.1 h with h | h
      · rw [Option.map_eq_some_iff] at h
        obtain ⟨p, h1, h⟩ := h
        simp only [Prod.mk.injEq] at h
        have : low p.1 < S.length := by
          refine hn p ?_
          cases n with
          | nil => simp [firstSums] at h1
          | cons x n => simp only [List.headD_cons] at h1; simp [lineSums, h1]
        rw [List.getElem?_eq_getElem this] at h
        simp at h
      · split at h
        · exact hp o k h.2
        · simp at h
    rcases List.mem_cons.1 h with h | h
    · simp only [Prod.mk.injEq] at h
      exact hr o k h.2.symm
    · refine readTLines32_found ls _ _ _ (fun p hp => ?_) (fun o k e => ?_) l' o k h
      · refine hn p ?_
        cases n with
        | nil => simp [lineSums] at hp
        | cons x n => simpa [lineSums] using Or.inr hp
      · unfold nextOf32 at e
        rw [Option.map_eq_some_iff] at e
        obtain ⟨⟨p1, p2, p3⟩, h1, h2⟩ := e
        simp only [Prod.mk.injEq] at h2
        obtain ⟨rfl, rfl, rfl⟩ := h2
        exact hr _ _ h1

theorem nodup_named {l : List (Option Int × Nat × Option Int)} (h : (l.map Prod.fst).Nodup)
    (hn : ∀ p ∈ l, p.1 ≠ none) : (l.map fun p => p.1.getD (-1)).Nodup := by
  induction l with
  | nil => simp
  | cons x l ih =>
    rw [List.map_cons, List.nodup_cons] at h ⊢
    refine ⟨fun hm => h.1 ?_, ih h.2 (fun p hp => hn p (by simp [hp]))⟩
    obtain ⟨p, hp, e⟩ := List.mem_map.1 hm
    refine List.mem_map.2 ⟨p, hp, ?_⟩
    have h1 := hn x (by simp)
    have h2 := hn p (by simp [hp])
    obtain ⟨x1, x2⟩ := x
    obtain ⟨p1, p2⟩ := p
    dsimp only at e h1 h2 ⊢
    cases x1 <;> cases p1 <;> simp_all

/-- A rendering can be read, and what is then rendered names distinct files. -/
theorem second_distinct (code : Str) (S C : List Int) (mappings : Str) (m : Slm) (f : Option Int)
    (h : slmFromString32 code S C mappings = .ok m) (h32 : S.length < 2 ^ 32) :
    (slmToStringWithSourceMap32 m f).source = code ∧ (slmToStringWithSourceMap32 m f).map.sources.length ≤ S.length + 1 ∧
    ∃ m', slmFromString32 code (slmToStringWithSourceMap32 m f).map.sources
        (slmToStringWithSourceMap32 m f).map.sourcesContent (slmToStringWithSourceMap32 m f).map.mappings = .ok m' ∧
      (slmToStringWithSourceMap32 m' f).map.sources.Nodup := by
  obtain ⟨n, hn⟩ : ∃ n, Each (fun m xss => leads (cut ',' m) = some xss)
      ((splitDrop ';' mappings).take (splitKeep '\n' code).length) n := by
    unfold slmFromString32 at h
    split at h
    · cases h
    · rename_i st rest e
      exact lfLines32_reads _ _ _ e
  obtain ⟨m1, e1, p, K⟩ := slmFromString32_tlines code S C mappings n hn
  rw [h] at e1
  cases e1
  generalize hL : readTLines32 S C (0, 1) n none (splitKeep '\n' code) = L at K
  have hfst : L.map Prod.fst = splitKeep '\n' code := by rw [← hL]; exact readTLines32_fst _ _ _ _
  have htext : slmText m = code := by
    have := K.text
    rw [List.reverse_reverse] at this
    rw [this, hfst, splitKeep_flatten]
  have hrender : slmMappings32 MapCtx.new m = linesMapping32 none MapCtx.new L := by
    have := K.render MapCtx.new
    rwa [List.reverse_reverse] at this
  have T0 : Tabled MapCtx.new := ⟨fun s i o h => by simp [MapCtx.new] at h, by simp [MapCtx.new]⟩
  have T := (linesMapping32_tabled L none MapCtx.new T0).1
  have hall : ∀ l s o k, (l, some (s, o, k)) ∈ L → (∀ i, s = some i → i ∈ S) ∧ k < 2 ^ 32 := by
    rw [← hL]; exact readTLines32_files _ _ _ _ (fun _ _ _ e => by cases e)
  have hof : ∀ p ∈ (linesMapping32 none MapCtx.new L).2.sources, ∀ i, p.1 = some i → i ∈ S :=
    linesMapping32_files (P := fun s => ∀ i, s = some i → i ∈ S) L none MapCtx.new (fun l s o k hm => (hall l s o k hm).1)
      (fun p hp => by simp [MapCtx.new] at hp)
  have hcount : (linesMapping32 none MapCtx.new L).2.sources.length ≤ S.length + 1 := by
    have := List.Nodup.length_le_of_subset (l₂ := none :: S.map some) T.nodup (fun s hs => by
      obtain ⟨p, hp, rfl⟩ := List.mem_map.1 hs
      cases e : p.1 with
      | none => simp
      | some i => simpa using hof p hp i e)
    simpa using this
  generalize hr : slmToStringWithSourceMap32 m f = r at *
  have hr' := hr
  unfold slmToStringWithSourceMap32 at hr'
  rw [hrender, htext] at hr'
  dsimp only at hr'
  have hsrc : r.map.sources = (linesMapping32 none MapCtx.new L).2.sources.map fun p => p.1.getD (-1) := by rw [← hr']
  have hmap : r.map.mappings = (linesMapping32 none MapCtx.new L).1 := by rw [← hr']
  have hlen : r.map.sources.length = (linesMapping32 none MapCtx.new L).2.sources.length := by rw [hsrc, List.length_map]
  obtain ⟨n', n1, n2, n3⟩ := lines_within (N := r.map.sources.length) (by omega) L MapCtx.new (0, 1) none
    (by intro e; rw [e] at hfst; exact splitKeep_ne_nil _ _ hfst.symm)
    (by rw [hfst]; exact codeLines_splitKeep code) rfl T0 rfl (fun h => absurd rfl h)
    (by rw [hlen]; exact Nat.le_refl _) (fun l s o k hm => (hall l s o k hm).2)
  have n1' : Each (fun m xss => leads (cut ',' m) = some xss)
      ((splitDrop ';' r.map.mappings).take (splitKeep '\n' code).length) n' := by
    rw [hmap, List.take_of_length_le]
    · exact n1
    · rw [n3, ← hfst, List.length_map]; exact Nat.le_refl _
  obtain ⟨m', e', p', K'⟩ := slmFromString32_tlines code r.map.sources r.map.sourcesContent r.map.mappings n' n1'
  refine ⟨by rw [← hr'], by omega, m', e', ?_⟩
  have hrender' := K'.render MapCtx.new
  rw [List.reverse_reverse] at hrender'
  unfold slmToStringWithSourceMap32
  rw [hrender']
  refine nodup_named (linesMapping32_tabled _ none MapCtx.new T0).1.nodup ?_
  refine linesMapping32_files (P := fun s => s ≠ none) _ none MapCtx.new (fun l s o k hm e => ?_)
    (fun p hp => by simp [MapCtx.new] at hp)
  subst e
  exact readTLines32_found _ _ _ _ n2 (fun _ _ h => by cases h) l o k hm

/-- C87: every map that can be read settles after two readings, whatever its files are named and whichever are missing. -/
theorem C87_wasm_second (code : Str) (S C : List Int) (mappings : Str) (m : Slm) (f : Option Int)
    (h : slmFromString32 code S C mappings = .ok m) (h32 : S.length + 1 < 2 ^ 32) :
    (slmToStringWithSourceMap32 m f).source = code ∧
    ∃ m', slmFromString32 code (slmToStringWithSourceMap32 m f).map.sources
        (slmToStringWithSourceMap32 m f).map.sourcesContent (slmToStringWithSourceMap32 m f).map.mappings = .ok m' ∧
      (slmToStringWithSourceMap32 m' f).source = code ∧
      ∃ m'', slmFromString32 code (slmToStringWithSourceMap32 m' f).map.sources
          (slmToStringWithSourceMap32 m' f).map.sourcesContent (slmToStringWithSourceMap32 m' f).map.mappings = .ok m'' ∧
        slmToStringWithSourceMap32 m'' f = slmToStringWithSourceMap32 m' f := by
  obtain ⟨h1, h2, m', h3, h4⟩ := second_distinct code S C mappings m f h (by omega)
  obtain ⟨h5, h6⟩ := C87_wasm_distinct_partial code _ _ _ m' f h3 (by omega) h4
  exact ⟨h1, m', h3, h5, h6⟩

/-! Non-trivial case: the map that does not settle after one reading, a file named -1 beside one that is missing
(`C87_wasm_not_minus_one`); what it gives at second is given again at third. -/

example : twice32 "a\nb".toList [-1, -1] [] "AAAA;ACAA".toList =
    some (([-1], [], "AAAA;AAAA".toList), ([-1], [], "AAAA;AAAA".toList)) := by
  decide +kernel

/-- The hypotheses of `C87_wasm_second` are met by that map. -/
example : (slmFromString32 "a\nb".toList [-1] [] "AAAA;AOAA".toList).toOption.isSome ∧
    ([-1] : List Int).length + 1 < 2 ^ 32 := by
  decide +kernel

end WS
