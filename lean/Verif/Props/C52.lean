import Verif.Proofs.JsPaired
/-!
# C52: each source comes with its own content

`sources` and `sourcesContent` of an emitted map are parallel lists: readers take `sourcesContent[i]` for
the text of `sources[i]`. The code builds the second list by leaving out what is missing
(`src/source_map/source_map_generator.rs:79-90`, `src/source_list_map/mappings_context.rs:41-58`), so one
missing content moves all later ones to a wrong source (`C23`).

For programs: if the given maps have a content for each of their sources, then in every emitted map there
are as many contents as sources, and each is one that the program supplied for that very source.
Column by column this holds without `ReplaceSource` (`C52_columns_partial`); line by line it holds with
it, unless a source is missing (`null`) because a given map refers to a source it does not list
(`C52_lines_partial`). For any tree, the contents are exactly the first ones kept for the sources
(`C52_tree`).

With `ReplaceSource`, column by column, the claim fails (`C52_not_general`): removing the text of a source
also drops its content, while the replacement still refers to the source. The source then is shown with
the content of the next one.
-/

namespace WS
open Spec

/-- What the statements allowed have in common. -/
theorem byColumns_paired {ops : List JOp} {op : JOp} (hm : op ∈ ops) (h : op.ByColumns) :
    op.Paired (fun s c => (s, c) ∈ suppliedPairs ops) False := by
  have mem : ∀ p, p ∈ op.pairs → p ∈ suppliedPairs ops := fun p hp => List.mem_flatMap.2 ⟨op, hm, hp⟩
  have arg : ∀ a : MapArg, a.Complete → (∀ p ∈ a.pairs, p ∈ suppliedPairs ops) →
      a.Paired (fun s c => (s, c) ∈ suppliedPairs ops) False := by
    intro a hc hp
    cases a with
    | plain ss cs ns m => exact ⟨hc, hp⟩
    | emitted k => exact id
  cases op with
  | newOriginal v n => exact mem _ (by simp [JOp.pairs])
  | newL2l v n o => exact mem _ (by simp [JOp.pairs])
  | newSms v n m o i =>
    refine ⟨fun f => f.elim, arg m h.1 fun p hp => mem p (by simp [JOp.pairs, hp]), ?_, ?_⟩
    · rintro s rfl
      exact mem _ (by simp [JOp.pairs])
    · rintro x rfl
      exact arg x (h.2 x rfl) fun p hp => mem p (by simp [JOp.pairs, hp])
  | newReplace c => exact h
  | sourceAndMap j c m => exact fun _ => h
  | set k a =>
    intro _
    cases a with
    | sources | contents => exact h.elim
    | source | mappings | names => simp [JAssign.field]
  | newRaw | newPrefix | newConcat | add | replace | insert | source | size | hash | get => trivial

/-- Line by line, the text of a `SourceMapSource` may be shown as the content of its own name. -/
def withOwn (ops : List JOp) : List (JVal × JVal) :=
  suppliedPairs ops ++ ops.flatMap fun op =>
    match op with
    | .newSms v n _ _ _ => [(some n, some v)]
    | _ => []

theorem byLines_paired {ops : List JOp} {op : JOp} (hm : op ∈ ops) (h : op.ByLines) :
    op.Paired (fun s c => (s, c) ∈ withOwn ops) True := by
  have mem : ∀ p, p ∈ op.pairs → p ∈ withOwn ops := fun p hp =>
    List.mem_append_left _ (List.mem_flatMap.2 ⟨op, hm, hp⟩)
  have arg : ∀ a : MapArg, a.Complete ∧ (∀ k, a ≠ .emitted k) → (∀ p ∈ a.pairs, p ∈ withOwn ops) →
      a.Paired (fun s c => (s, c) ∈ withOwn ops) True := by
    intro a hc hp
    cases a with
    | plain ss cs ns m => exact ⟨hc.1, hp⟩
    | emitted k => exact absurd rfl (hc.2 k)
  cases op with
  | newOriginal v n => exact mem _ (by simp [JOp.pairs])
  | newL2l v n o => exact mem _ (by simp [JOp.pairs])
  | newSms v n m o i =>
    refine ⟨fun _ => ?_, arg m h.1 fun p hp => mem p (by simp [JOp.pairs, hp]), ?_, ?_⟩
    · exact List.mem_append_right _ (List.mem_flatMap.2 ⟨_, hm, by simp⟩)
    · rintro s rfl
      exact mem _ (by simp [JOp.pairs])
    · rintro x rfl
      exact arg x (h.2 x rfl) fun p hp => mem p (by simp [JOp.pairs, hp])
  | newReplace c => trivial
  | sourceAndMap j c m => exact fun f => absurd trivial f
  | set k a => exact fun f => absurd trivial f
  | newRaw | newPrefix | newConcat | add | replace | insert | source | size | hash | get => trivial

/-- Reading the sources and then the contents. -/
theorem linesUp_of_holds {given : List (JVal × JVal)} {w w1 w2 : World} {k : Nat} {ls : List JVal}
    {v : JFieldVal} (h : ∀ e, w.maps[k]? = some e →
      ∃ ls lc, e.Holds (fun s c => (s, c) ∈ given) w.strs ls lc)
    (r1 : (JOp.get k .sources).run w = .ok (.field (.list ls), w1))
    (r2 : (JOp.get k .contents).run w1 = .ok (.field v, w2)) : LinesUp given ls v := by
  simp only [JOp.run] at r1
  split at r1
  · cases r1
  · rename_i e he
    obtain ⟨l1, lc, hh⟩ := h e he
    simp only [Except.map_ok_iff] at r1
    obtain ⟨⟨x, e'⟩, h1, h2⟩ := r1
    simp only [Emitted.get, Except.map_ok_iff] at h1
    obtain ⟨p, h1, h3⟩ := h1
    have hp := hh.getSources
    rw [h1] at hp
    cases h3
    cases h2
    have hl : k < w.maps.length := (List.getElem?_eq_some_iff.1 he).1
    simp only [JOp.run, List.getElem?_set_self hl] at r2
    simp only [Except.map_ok_iff] at r2
    obtain ⟨⟨x, e''⟩, h2, h3⟩ := r2
    simp only [Emitted.get, Except.map_ok_iff] at h2
    obtain ⟨q, h2, h4⟩ := h2
    have hq := Emitted.Holds.getContents (w := { w with maps := w.maps.set k p.2 }) hp.2
    rw [h2] at hq
    cases h4
    cases h3
    refine ⟨lc, ?_, ?_, ?_⟩
    · rw [hq.1]
      cases lc with
      | nil => exact .inr ⟨rfl, rfl⟩
      | cons a l => exact .inl rfl
    · rw [hp.1]; exact hh.len.symm
    · intro i s c hs hc
      rw [hp.1] at hs
      exact hh.pairs (s, c) (List.mem_iff_getElem?.2 ⟨i, by rw [List.getElem?_zip_eq_some]; exact ⟨hs, hc⟩⟩)

/-- Column by column. Missing: programs with `ReplaceSource`, for which this is false. -/
theorem C52_columns_partial (ops : List JOp) (w w1 w2 : World) (k : Nat) (sources : List JVal)
    (contents : JFieldVal) (h : ∀ op ∈ ops, op.ByColumns) (e : World.run ops = .ok w)
    (r1 : (JOp.get k .sources).run w = .ok (.field (.list sources), w1))
    (r2 : (JOp.get k .contents).run w1 = .ok (.field contents, w2)) :
    LinesUp (suppliedPairs ops) sources contents := by
  have W := World.run_paired (fun op ho => byColumns_paired ho (h op ho)) e
  exact linesUp_of_holds (fun e he => W.maps id e (List.mem_of_getElem? he)) r1 r2

/-- Line by line. Missing: maps in which a source is missing, for which this is false. -/
theorem C52_lines_partial (ops : List JOp) (w w1 w2 w3 : World) (j k : Nat) (mod : Bool)
    (sources : List JVal) (contents : JFieldVal) (h : ∀ op ∈ ops, op.ByLines)
    (e : World.run ops = .ok w) (r : (JOp.sourceAndMap j false mod).run w = .ok (.pair k, w1))
    (r1 : (JOp.get k .sources).run w1 = .ok (.field (.list sources), w2))
    (r2 : (JOp.get k .contents).run w2 = .ok (.field contents, w3)) (hn : none ∉ sources) :
    LinesUp (withOwn ops) sources contents := by
  have W := World.run_paired (fun op ho => byLines_paired ho (h op ho)) e
  simp only [JOp.run, World.emit] at r
  split at r
  · cases r
  · rename_i o eo
    split at r
    · cases r
    · simp only [Bool.false_eq_true, if_false, Except.bind_ok_iff] at r
      obtain ⟨⟨a, w'⟩, h1, r⟩ := r
      have hc := W.call (op := .listMap o.ptr false mod) trivial
      rw [h1] at hc
      obtain ⟨-, ha, hs, hm⟩ := hc
      dsimp only at ha hs hm r
      split at r
      · rename_i n
        cases r
        refine linesUp_of_holds (fun e he => ?_) r1 r2
        simp only [List.getElem?_concat_length, Option.some.injEq] at he
        have hne : -1 ∉ (slmToStringWithSourceMap n none).map.sources := by
          intro hmem
          apply hn
          simp only [JOp.run, List.getElem?_concat_length] at r1
          simp only [Except.map_ok_iff] at r1
          obtain ⟨⟨x, e'⟩, h5, h6⟩ := r1
          simp only [Emitted.get, Emitted.new, Emitted.getSources, Emitted.data, WasmMap.getMap,
            Except.map_ok_iff, Except.bind_ok_iff] at h5
          obtain ⟨p, ⟨q, h7, l, h8, h9⟩, h10⟩ := h5
          cases h7
          cases h9
          cases h10
          cases h6
          obtain ⟨vs, h11, rfl⟩ := resolve_ok h8
          obtain ⟨i, hi⟩ := List.mem_iff_getElem?.1 hmem
          have h12 := (C24_resolve _ _ _).1 h11
          have h13 : ((slmToStringWithSourceMap n none).map.sources.map w'.strs.at)[i]? =
              some (some none) := by
            rw [List.getElem?_map, hi]; rfl
          rw [h12, List.getElem?_map] at h13
          refine List.mem_iff_getElem?.2 ⟨i, ?_⟩
          rw [List.getElem?_map]
          cases ev : vs[i]? with
          | none => rw [ev] at h13; cases h13
          | some x => rw [ev] at h13; cases h13; rfl
        have := slmToStringWithSourceMap_cover (ha trivial) none hne
        rw [← he]
        dsimp only
        rw [hs]
        exact Emitted.holds_list this.1 this.2 _ _
      · cases r

/-- For any tree: the contents of an emitted map are the first ones kept for its sources, with those
sources left out for which there is none. -/
theorem C52_tree (n : SmNode) (file : Option Int) (root : Option Str) (r : StringWithSourceMap)
    (e : n.toStringWithSourceMap file root = .ok r) :
    r.map.sourcesContent = r.map.sources.filterMap (fun s => n.cts.lookup s) := by
  simp only [SmNode.toStringWithSourceMap] at e
  split at e
  · cases e
  · rename_i m g em
    cases e
    simp only [Generator.toSourceMap, Generator.serializeMappings] at em
    split at em
    · cases em
    · rename_i s g1 e1
      split at e1
      · cases e1; cases em
        dsimp only
        rw [List.filterMap_map, walk_contents]
        congr 1
        funext p
        simp [enterAll_lookup, WalkCtx.new, Generator.new]
      · cases e1

/-- A replacement over three originals that removes the text of the second one. -/
def c52Program : List JOp :=
  [.newOriginal "x\n".toList "a.js".toList, .newOriginal "abc".toList "b.js".toList,
   .newOriginal "efg".toList "c.js".toList, .newConcat [.obj 0, .obj 1, .obj 2],
   .newReplace (.obj 3), .replace 4 2 4 "Z".toList, .sourceAndMap 4 true true]

/-- The claim fails with `ReplaceSource`: `b.js` gets the content of `c.js`, and `c.js` gets none. -/
theorem C52_not_general : ¬ ∀ (ops : List JOp) (w w1 w2 : World) (k : Nat) (sources : List JVal)
    (contents : JFieldVal), World.run ops = .ok w →
    (JOp.get k .sources).run w = .ok (.field (.list sources), w1) →
    (JOp.get k .contents).run w1 = .ok (.field contents, w2) →
    LinesUp (suppliedPairs ops) sources contents := by
  intro h
  have hs : ((World.run c52Program).bind fun w => ((JOp.get 0 .sources).run w).map Prod.fst) =
      .ok (.field (.list [some "a.js".toList, some "b.js".toList, some "c.js".toList])) := by
    decide +kernel
  have hc : ((World.run c52Program).bind fun w => ((JOp.get 0 .sources).run w).bind fun p =>
      ((JOp.get 0 .contents).run p.2).map Prod.fst) =
      .ok (.field (.list [some "x\n".toList, some "efg".toList])) := by
    decide +kernel
  simp only [Except.bind_ok_iff, Except.map_ok_iff] at hs hc
  obtain ⟨w, hw, ⟨a1, w1⟩, h1, rfl⟩ := hs
  obtain ⟨w', hw', ⟨a, w1'⟩, h1', ⟨v, w2⟩, h2, rfl⟩ := hc
  rw [hw] at hw'
  cases hw'
  rw [h1] at h1'
  cases h1'
  obtain ⟨l, hl, hlen, -⟩ := (h _ _ _ _ _ _ _ hw h1 h2).all
  rcases hl with hl | ⟨hl, -⟩
  · cases hl; simp at hlen
  · cases hl

/-! ## Examples -/

/-- Three kinds, one with a map and an inner map. -/
def c52Good : List JOp :=
  [.newOriginal "x\n".toList "a.js".toList,
   .newL2l "y\n".toList "b.js".toList "yy".toList,
   .newSms "z\n".toList "gen.js".toList
     (.plain [some "mid.js".toList, some "gen.js".toList] [some "m".toList, some "g".toList] []
       "AAAA,CCAA".toList)
     (some "orig".toList)
     (some (.plain [some "in.ts".toList] [some "i".toList] [] "AAAA".toList)),
   .newConcat [.obj 0, .obj 1, .obj 2],
   .newPrefix "\t".toList (.obj 3),
   .sourceAndMap 4 true true]

example : ∀ op ∈ c52Good, op.ByColumns := by
  simp [c52Good, JOp.ByColumns, MapArg.Complete]

example : suppliedPairs c52Good =
    [(some "a.js".toList, some "x\n".toList), (some "b.js".toList, some "yy".toList),
     (some "gen.js".toList, some "orig".toList), (some "mid.js".toList, some "m".toList),
     (some "gen.js".toList, some "g".toList), (some "in.ts".toList, some "i".toList)] := by
  decide +kernel

example : ((World.run c52Good).bind fun w => ((JOp.get 0 .sources).run w).map Prod.fst) =
    .ok (.field (.list [some "a.js".toList, some "b.js".toList, some "mid.js".toList,
      some "in.ts".toList])) := by decide +kernel
example : ((World.run c52Good).bind fun w => ((JOp.get 0 .contents).run w).map Prod.fst) =
    .ok (.field (.list [some "x\n".toList, some "yy".toList, some "m".toList,
      some "i".toList])) := by decide +kernel

/-- Line by line. The loop of the replacement does not reduce in the kernel, so the values are shown
for the object below it; for the replacement they are `a.js`, `c.js` with `"x\n"`, `"efg"`. -/
def c52Lines : List JOp := c52Program.dropLast

example : ∀ op ∈ c52Lines, op.ByLines := by simp [c52Lines, c52Program, JOp.ByLines]

example : ((World.run c52Lines).bind fun w => ((JOp.sourceAndMap 3 false true).run w).bind fun p =>
      ((JOp.get 0 .sources).run p.2).map Prod.fst) =
    .ok (.field (.list [some "a.js".toList, some "b.js".toList, some "c.js".toList])) := by
  decide +kernel
example : ((World.run c52Lines).bind fun w => ((JOp.sourceAndMap 3 false true).run w).bind fun p =>
      ((JOp.get 0 .contents).run p.2).map Prod.fst) =
    .ok (.field (.list [some "x\n".toList, some "abc".toList, some "efg".toList])) := by
  decide +kernel

end WS
