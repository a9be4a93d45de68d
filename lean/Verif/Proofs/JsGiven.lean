import Verif.Props.C65
/-! # What a `SourceMapSource` holds that was made from an emitted map -/

namespace WS
open Spec

/-! ## Mappings recorded one after the other -/

/-- The list came about by additions. -/
inductive MappingList.Built : MappingList → Prop
  | new : MappingList.Built .new
  | add {l : MappingList} (m : Mapping) : l.Built → (l.add m).Built

theorem MappingList.Built.strict {l : MappingList} (h : l.Built)
    (hs : (l.list.map Mapping.point).Pairwise Point.Lt) : l.sorted = true ∧ l.last = l.list.getLast? := by
  induction h with
  | new => exact ⟨rfl, rfl⟩
  | @add l m _ ih =>
    rw [MappingList.add_list, List.map_append, List.pairwise_append] at hs
    obtain ⟨h1, -, h3⟩ := hs
    obtain ⟨k1, k2⟩ := ih h1
    have hle : ∀ lm, l.last = some lm → Mapping.le lm m = true := by
      intro x hx
      rw [k2] at hx
      have := h3 x.point (List.mem_map.2 ⟨x, List.mem_of_getLast? hx, rfl⟩) m.point (by simp)
      exact Mapping.le_of_lt (by simpa [Point.Lt, Mapping.point, PosLt] using this)
    have he : l.add m = { l with list := l.list ++ [m], last := some m } := by
      unfold MappingList.add
      cases hx : l.last with
      | none => rfl
      | some x => simp [hle x hx]
    rw [he]
    exact ⟨k1, by simp⟩

theorem Core.head_built {c : Core} (h : c.mappings.Built) (o : Option Origin) : (c.head o).mappings.Built := by
  unfold Core.head
  cases o with
  | some o =>
    dsimp only
    split
    · exact .add _ h
    · exact h
  | none =>
    dsimp only
    split
    · exact .add _ h
    · exact h

theorem Core.chars_built (o : Option Origin) : ∀ (s : Str) {c : Core}, c.mappings.Built →
    (Core.chars o c s).mappings.Built
  | [], c, h => h
  | ch :: rest, c, h => by
    rw [Core.chars]
    split
    · dsimp only
      apply Core.chars_built o rest
      split
      · exact h
      · cases o with
        | none => exact h
        | some o => exact .add _ h
    · exact Core.chars_built o rest h

theorem Core.walk_built : ∀ (L : List (Str × Option Origin)) {c : Core}, c.mappings.Built →
    (c.walk L).mappings.Built
  | [], c, h => h
  | (s, o) :: L, c, h => by
    rw [Core.walk]
    exact Core.walk_built L (Core.chars_built o s (Core.head_built h o))

/-! ## Generators -/

/-- Everything is in place, and in order if no two positions are the same. -/
def Generator.Sound (g : Generator) : Prop :=
  g.Ok ∧ g.mappings.Truthful ∧
    ((g.mappings.sort.list.map Mapping.point).Pairwise Point.Lt → g.mappings.sort = g.mappings)

theorem node_sound (n : SmNode) (hl : n.Lined) : (n.toStringWithGenerator none none).2.Sound := by
  have h := SmNode.walk_ok n (c := WalkCtx.new none none)
    ⟨Generator.new_ok _ _ _, fun _ => List.Pairwise.nil, rfl, Nat.le_refl _⟩ hl.leaves
  refine ⟨h.ok, h.truthful, fun hs => ?_⟩
  have hc : (n.walk (WalkCtx.new none none)).map.mappings = (Core.new.walk n.leaves).mappings :=
    congrArg Core.mappings (SmNode.walk_core n (WalkCtx.new none none))
  change ((n.walk (WalkCtx.new none none)).map.mappings.sort.list.map Mapping.point).Pairwise Point.Lt at hs
  show (n.walk (WalkCtx.new none none)).map.mappings.sort = (n.walk (WalkCtx.new none none)).map.mappings
  rw [hc] at hs ⊢
  obtain ⟨cur, here, I⟩ := CoreInv.walk (G := False) n.leaves (CoreInv.new False) (fun h => h.elim)
  have hle : ((Core.new.walk n.leaves).mappings.list.map Mapping.point).Pairwise Point.Le := by
    rw [List.pairwise_map]
    refine I.mono.imp fun {a b} hab => ?_
    simp only [PosLt, Point.Le, Mapping.point] at hab ⊢
    omega
  have he := eq_of_perm_of_lt ((Core.new.walk n.leaves).mappings.sort_perm.map Mapping.point).symm hs hle
  rw [← he] at hs
  rw [MappingList.sort, if_pos ((Core.walk_built n.leaves (c := Core.new) .new).strict hs).1]

theorem Generator.toSourceMap_sorted {g g' : Generator} {m : SourceMap} (e : g.toSourceMap = .ok (m, g')) :
    g' = { g with mappings := g.mappings.sort } ∧ g'.toSourceMap = .ok (m, g') := by
  have key : ({ g with mappings := g.mappings.sort } : Generator).toSourceMap = g.toSourceMap := by
    simp only [Generator.toSourceMap, Generator.serializeMappings, MappingList.sort_sort]
  have h1 : g' = { g with mappings := g.mappings.sort } := by
    simp only [Generator.toSourceMap, Generator.serializeMappings] at e
    split at e
    · cases e
    · rename_i h
      split at h
      · cases h; cases e; rfl
      · cases h
  exact ⟨h1, by rw [h1, key, e, h1]⟩

theorem Generator.Sound.sorted {g : Generator} (h : g.Sound) :
    ({ g with mappings := g.mappings.sort } : Generator).Sound :=
  ⟨Generator.sort_ok h.1, MappingList.sort_truthful h.2.1, fun _ => MappingList.sort_sort _⟩

/-! ## Emitted maps -/

/-- What the wasm object of a map with columns holds is one thing. -/
def Emitted.Whole (e : Emitted) : Prop :=
  ∀ wm g, e.wasm = some wm → wm.gen = some g → g.Sound ∧ ∀ m, wm.map = some m → ∃ g', g.toSourceMap = .ok (m, g')

/-- Unless names are assigned somewhere, which is for maps with columns only, every map is used as it reads. -/
def Emitted.Sound (nb : Prop) (t : StrTable JVal) (e : Emitted) : Prop :=
  (∃ c, e.Plain c t ∧ (c = true ∨ nb)) ∧ e.Whole

theorem Emitted.Sound.lasting (nb : Prop) : Lasting (fun t e => e.Sound nb t) := by
  refine ⟨fun g h => ⟨?_, h.2⟩, fun {w e e' f v} h hg => ⟨?_, ?_⟩⟩
  · obtain ⟨c, h1, h2⟩ := h.1
    exact ⟨c, (Plain.lasting c).mono g h1, h2⟩
  · obtain ⟨c, h1, h2⟩ := h.1
    exact ⟨c, (Plain.lasting c).get h1 hg, h2⟩
  · rcases (Emitted.get_changes hg).1 with k | ⟨wm, m, wm', k1, k2, k3⟩
    · intro wm g h1 h2
      exact h.2 wm g (k ▸ h1) h2
    · intro wx g h1 h2
      rw [k3] at h1; cases h1
      simp only [WasmMap.getMap] at k2
      split at k2
      · rename_i m0 hm0
        cases k2
        exact h.2 _ g k1 h2
      · split at k2
        · cases k2
        · rename_i g0 hg0
          split at k2
          · cases k2
          · rename_i m1 g1 hg1
            cases k2
            cases h2
            obtain ⟨e1, e2⟩ := Generator.toSourceMap_sorted hg1
            refine ⟨by rw [e1]; exact (h.2 wm g0 k1 hg0).1.sorted, fun m hm => ?_⟩
            cases hm
            exact ⟨_, e2⟩

theorem Emitted.Sound.move {nb : Prop} {t : StrTable JVal} {e : Emitted} (h : e.Sound nb t) :
    Emitted.Sound nb t { e with wasm := none } :=
  ⟨by obtain ⟨c, -, h2⟩ := h.1; exact ⟨c, .inr (.inl rfl), h2⟩, fun _ _ h => by cases h⟩

theorem Emitted.Sound.set {nb : Prop} {t : StrTable JVal} {e : Emitted} (h : e.Sound nb t) {a : JAssign}
    (ha : nb → a.field ≠ .names) : (e.set a).Sound nb t := by
  obtain ⟨⟨c, h1, h2⟩, h3⟩ := h
  refine ⟨⟨c, Plain.set h1 (h2.imp_right ha), h2⟩, ?_⟩
  intro wm g k1 k2
  refine h3 wm g ?_ k2
  cases a <;> simp only [Emitted.set] at k1 <;> first | exact k1 | (split at k1 <;> exact k1)

/-! ## All emitted maps of a program -/

theorem World.give_maps_length {w w' : World} {a : MapArg} {h : SmHolder} (r : w.give a = .ok (h, w')) :
    w'.maps.length = w.maps.length := by
  cases a with
  | plain ss cs ns m =>
    simp only [World.give, Except.ok.injEq] at r
    have hmaps := w.giveData_maps ss cs ns m
    rw [r] at hmaps
    rw [hmaps]
  | emitted l =>
    simp only [World.give] at r
    split at r
    · cases r
    · split at r
      · cases r; simp
      · simp only [Except.bind_ok_iff, Except.map_ok_iff] at r
        obtain ⟨a, ha, b, hb, c, hc, d, hd, r⟩ := r
        have hmaps := World.giveData_maps { w with maps := w.maps.set l d.2 } a.1 (b.1.getD []) d.1 c.1
        rw [r] at hmaps
        rw [hmaps]; simp

theorem World.giveInner_maps_length {w w' : World} {a : Option MapArg} {h : Option SmHolder}
    (r : w.giveInner a = .ok (h, w')) : w'.maps.length = w.maps.length := by
  cases a with
  | none => cases r; rfl
  | some a =>
    simp only [World.giveInner, Except.map_ok_iff] at r
    obtain ⟨p, h1, h2⟩ := r
    cases h2
    exact World.give_maps_length h1

theorem JOp.run_maps_length {w w' : World} {op : JOp} {a : JAnswer} (r : op.run w = .ok (a, w'))
    (hn : ∀ j c m, op ≠ .sourceAndMap j c m) : w'.maps.length = w.maps.length := by
  cases op with
  | newRaw v =>
    simp only [JOp.run, Except.map_ok_iff] at r
    obtain ⟨_, h, h2⟩ := r; cases h2
    simp only [World.newRaw] at h
    split at h
    · cases h; rfl
    · simp only [Except.map_ok_iff] at h
      obtain ⟨w2, h3, rfl⟩ := h
      exact congrArg List.length (World.create_strs h3).2
  | newOriginal v n =>
    simp only [JOp.run, Except.map_ok_iff] at r
    obtain ⟨_, h, h2⟩ := r; cases h2
    simp only [World.newOriginal] at h
    split at h
    · split at h
      · cases h; rfl
      · simp only [Except.map_ok_iff] at h
        obtain ⟨w2, h3, rfl⟩ := h
        exact congrArg List.length (World.create_strs h3).2
    · exact congrArg List.length (World.create_strs h).2
  | newL2l v n o =>
    simp only [JOp.run, Except.map_ok_iff] at r
    obtain ⟨_, h, h2⟩ := r; cases h2
    exact congrArg List.length (World.create_strs h).2
  | newSms v n m o i =>
    simp only [JOp.run, Except.map_ok_iff] at r
    obtain ⟨_, h, h2⟩ := r; cases h2
    simp only [World.newSms, Except.bind_ok_iff] at h
    obtain ⟨m', h1, i', h2, h3⟩ := h
    have e1 := World.give_maps_length h1
    have e2 := World.giveInner_maps_length h2
    have e3 := congrArg List.length (World.create_strs h3).2
    rw [e3, e2]
    cases ht : truthy o with
    | none => exact e1
    | some s => exact e1
  | newPrefix p c =>
    simp only [JOp.run, Except.map_ok_iff, Except.bind_ok_iff] at r
    obtain ⟨s, hs, _, h, h2⟩ := r; cases h2
    exact congrArg List.length (World.create_strs h).2
  | newReplace c =>
    simp only [JOp.run, Except.map_ok_iff, Except.bind_ok_iff] at r
    obtain ⟨s, hs, _, h, h2⟩ := r; cases h2
    exact congrArg List.length (World.create_strs h).2
  | newConcat items =>
    simp only [JOp.run, Except.map_ok_iff, Except.bind_ok_iff] at r
    obtain ⟨w1, h1, w2, h2, h3⟩ := r; cases h3
    exact congrArg List.length ((World.addItems_strs h2).2.trans (World.create_strs h1).2)
  | add j item =>
    simp only [JOp.run, Except.map_ok_iff] at r
    obtain ⟨_, h, h2⟩ := r; cases h2
    exact congrArg List.length (World.addItem_strs h).2
  | replace j a b t =>
    simp only [JOp.run] at r
    split at r
    · simp only [Except.map_ok_iff] at r
      obtain ⟨p, h1, h2⟩ := r; cases h2
      exact congrArg List.length (World.call_strs h1).2
    · cases r
  | insert j a t =>
    simp only [JOp.run] at r
    split at r
    · simp only [Except.map_ok_iff] at r
      obtain ⟨p, h1, h2⟩ := r; cases h2
      exact congrArg List.length (World.call_strs h1).2
    · cases r
  | source j =>
    simp only [JOp.run, Except.map_ok_iff] at r
    obtain ⟨_, h, h2⟩ := r; cases h2; exact congrArg List.length (World.readSource_strs h).2
  | size j =>
    simp only [JOp.run, Except.map_ok_iff] at r
    obtain ⟨_, h, h2⟩ := r; cases h2; exact congrArg List.length (World.readSize_strs h).2
  | sourceAndMap j c m => exact absurd rfl (hn j c m)
  | hash j =>
    simp only [JOp.run, Except.map_ok_iff] at r
    obtain ⟨_, h, h2⟩ := r; cases h2
    exact congrArg List.length ((World.hash_strs _).1 _ _ _ _ h).2
  | get l f =>
    simp only [JOp.run] at r
    split at r
    · cases r
    · simp only [Except.map_ok_iff] at r
      obtain ⟨p, h1, h2⟩ := r; cases h2
      simp
  | set l x =>
    simp only [JOp.run] at r
    split at r
    · cases r
    · cases r; simp

/-- Names are assigned to maps only if all maps have columns. -/
def NamesOk (nb : Prop) : JOp → Prop
  | .set _ a => nb → a.field ≠ .names
  | .sourceAndMap _ c _ => c = true ∨ nb
  | _ => True

theorem JOp.run_sound {nb : Prop} {w w' : World} {op : JOp} {a : JAnswer} (hs : ∀ e ∈ w.maps, e.Sound nb w.strs)
    (hl : w.Lined) (hn : NamesOk nb op) (r : op.run w = .ok (a, w')) : ∀ e ∈ w'.maps, e.Sound nb w'.strs := by
  have old : ∀ k, k < w.maps.length → ∃ e', w'.maps[k]? = some e' ∧ e'.Sound nb w'.strs := by
    intro k hk
    have hk' : w.maps[k]? = some w.maps[k] := List.getElem?_eq_getElem hk
    refine (Emitted.Sound.lasting nb).run hk' (hs _ (List.getElem_mem hk)) (fun _ _ _ h => h.move) ?_ r
    intro x hx t e h
    subst hx
    exact h.set hn
  have main : ∀ k e, w'.maps[k]? = some e → k < w.maps.length → e.Sound nb w'.strs := by
    intro k e he hk
    obtain ⟨e', h1, h2⟩ := old k hk
    rw [he] at h1; cases h1; exact h2
  intro e he
  obtain ⟨k, hk⟩ := List.getElem?_of_mem he
  by_cases hlt : k < w.maps.length
  · exact main k e hk hlt
  by_cases hop : ∃ j c m, op = .sourceAndMap j c m
  · obtain ⟨j, c, m, rfl⟩ := hop
    have hlt' := (List.getElem?_eq_some_iff.1 hk).1
    simp only [JOp.run] at r
    have r0 := r
    unfold World.emit at r
    split at r
    · cases r
    rename_i o ho
    split at r
    · cases r; exact absurd hlt' hlt
    split at r
    · rename_i hc
      subst hc
      simp only [Except.bind_ok_iff] at r
      obtain ⟨⟨a, w2⟩, h1, h2⟩ := r
      dsimp only at h2
      split at h2
      · rename_i n
        have hln := hl.call (op := .node o.ptr true m) trivial
        rw [h1] at hln
        obtain ⟨-, l2, -⟩ := hln
        cases h2
        have : k = w.maps.length := by simp at hlt'; omega
        subst this
        rw [List.getElem?_concat_length] at hk
        cases hk
        refine ⟨⟨true, Plain.new fun h => (by cases h), .inl rfl⟩, ?_⟩
        intro wm g k1 k2
        cases k1; cases k2
        exact ⟨node_sound n l2, fun m hm => by cases hm⟩
      · cases h2
    · rename_i hc
      have hc : c = false := by simpa using hc
      subst hc
      simp only [Except.bind_ok_iff] at r
      obtain ⟨⟨a, w2⟩, h1, h2⟩ := r
      dsimp only at h2
      split at h2
      · rename_i n
        cases h2
        have : k = w.maps.length := by simp at hlt'; omega
        subst this
        rw [List.getElem?_concat_length] at hk
        cases hk
        refine ⟨⟨false, Plain.new fun _ => ⟨_, _, rfl, rfl⟩, .inr (by cases hn with | inl h => cases h | inr h => exact h)⟩, ?_⟩
        intro wm g k1 k2
        cases k1; cases k2
      · cases h2
  · have := JOp.run_maps_length r fun j c m e => hop ⟨j, c, m, e⟩
    exact absurd (this ▸ (List.getElem?_eq_some_iff.1 hk).1) hlt

/-! ## What is handed over -/

theorem values_length {t : StrTable JVal} : ∀ {ids : List Int} {vs : List JVal}, t.values ids = some vs →
    ids.length = vs.length
  | [], vs, h => by cases h; rfl
  | i :: ids, vs, h => by
    obtain ⟨us, h1, rfl⟩ := Option.map_eq_some_iff.1 h
    simp only [StrTable.resolve] at h1
    split at h1
    · cases h1
    · obtain ⟨xs, h2, rfl⟩ := Option.map_eq_some_iff.1 h1
      have := values_length (t := t) (ids := ids) (vs := xs.map Option.join) (by simp [StrTable.values, h2])
      simpa using this

theorem lists_of_values {t : StrTable JVal} {ids : List Int} {vs : List JVal} (h : t.values ids = some vs)
    (hc : ∀ (k : Nat) (i : Int) (v : JVal), ids[k]? = some i → vs[k]? = some v → t.name i = v →
      ∃ P, Canon t P i) : t.Lists ids vs := by
  have hl : ids.length = vs.length := values_length h
  refine ⟨hl, fun k i v h1 h2 => ?_⟩
  have hk := (List.getElem?_eq_some_iff.1 h1).1
  obtain ⟨-, k2⟩ := StrTable.values_at h k hk
  rw [h1, h2] at k2
  have k2 : t.name i = v := k2
  obtain ⟨P, h0, x, hx, -, hi⟩ := hc k i v h1 h2 k2
  have : t.name i = x := by
    rw [StrTable.name, StrTable.at, if_neg (by omega), hx]; rfl
  exact ⟨h0, x, hx, by rw [← this, k2], hi⟩

theorem StrTable.Holds.of_denotes {U : Pool} {t : StrTable JVal} {hd : SmHolder} {ss cs ns : List JVal} {mp : Str}
    (hin : hd.In (dom U t)) (h : Denotes t hd ss cs ns mp) (hs : none ∉ ss)
    (hg : ∀ g, hd.gen = some g → g.Sound ∧ ∀ d, hd.data = some d → ∃ m g', g.toSourceMap = .ok (m, g') ∧ m.data = d) :
    t.Holds hd ss cs ns mp := by
  obtain ⟨d, h1, h2, h3, h4, h5⟩ := h
  have hd' : d.In (dom U t) := by
    rcases h1 with h1 | ⟨-, g, sm, g', h6, h7, rfl⟩
    · exact hin.data d h1
    · have := ((hin.gen g h6).toSourceMap h7).1
      exact ⟨this.sources, this.contents, this.names⟩
  refine ⟨d, ?_, h2, h5, lists_of_values h2 fun k i v k1 k2 k3 => ?_, lists_of_values h4 fun k i v k1 k2 k3 => ?_, h3⟩
  · cases hgen : hd.gen with
    | none =>
      rcases h1 with h1 | ⟨-, g, sm, g', h6, -⟩
      · exact .inl (by cases hd; simp_all)
      · rw [hgen] at h6; cases h6
    | some g =>
      obtain ⟨⟨s1, s2, s3⟩, s4⟩ := hg g hgen
      rcases h1 with h1 | ⟨h0, g', sm, g'', h6, h7, rfl⟩
      · exact .inr ⟨g, hgen, .inr h1, s1, s2, s3, s4 d h1⟩
      · rw [hgen] at h6; cases h6
        exact .inr ⟨g, hgen, .inl h0, s1, s2, s3, sm, g'', h7, rfl⟩
  · rcases hd'.sources i (List.mem_of_getElem? k1) with rfl | hc
    · rw [t.has_neg.2] at k3
      subst k3
      exact absurd (List.mem_of_getElem? k2) hs
    · exact ⟨_, hc⟩
  · exact ⟨_, hd'.names i (List.mem_of_getElem? k1)⟩

theorem World.give_gen {w w' : World} {a : MapArg} {hd : SmHolder} (r : w.give a = .ok (hd, w'))
    (hs : ∀ k e, a = .emitted k → w.maps[k]? = some e → e.Whole) :
    ∀ g, hd.gen = some g → g.Sound ∧ ∀ d, hd.data = some d → ∃ m g', g.toSourceMap = .ok (m, g') ∧ m.data = d := by
  intro g hg
  cases a with
  | plain ss cs ns m =>
    simp only [World.give, Except.ok.injEq, World.giveData] at r
    cases r
    cases hg
  | emitted k =>
    simp only [World.give] at r
    split at r
    · cases r
    · rename_i e he
      split at r
      · rename_i wm hwm
        cases r
        have hwm : e.wasm = some wm := by
          split at hwm
          · cases hwm
          · exact hwm
        obtain ⟨k1, k2⟩ := hs k e rfl he wm g hwm hg
        refine ⟨k1, fun d hd => ?_⟩
        obtain ⟨m, hm, rfl⟩ := Option.map_eq_some_iff.1 hd
        obtain ⟨g', k3⟩ := k2 m hm
        exact ⟨m, g', k3, rfl⟩
      · simp only [Except.bind_ok_iff, Except.map_ok_iff] at r
        obtain ⟨a, ha, b, hb, c, hc, d, hd, r⟩ := r
        simp only [World.giveData] at r
        cases r
        cases hg

/-! ## Spelling out -/

/-- The map as its properties read when the statement is executed; every file in it has a name. -/
def Spec.SpeltMap (w : World) : MapArg → MapArg → Prop
  | .plain ss cs ns mp, m => m = .plain ss cs ns mp
  | .emitted k, m => ∃ ss cv nv mp, Reads w k .sources (.list ss) ∧ Reads w k .contents cv ∧
      Reads w k .mappings (.text mp) ∧ Reads w k .names nv ∧ none ∉ ss ∧
      m = .plain ss (Spec.JFieldVal.entries cv) (Spec.JFieldVal.entries nv) mp

/-- The same for an optional map. -/
def Spec.SpeltOpt (w : World) : Option MapArg → Option MapArg → Prop
  | none, m => m = none
  | some a, m => ∃ b, m = some b ∧ SpeltMap w a b

/-- The statement with the maps it gives as they read. -/
def Spec.SpeltOut (w : World) (op op' : JOp) : Prop :=
  match op with
  | .newSms v n m o i => ∃ m' i', op' = .newSms v n m' o i' ∧ SpeltMap w m m' ∧ SpeltOpt w i i'
  | op => op' = op

/-- The statements that make objects, with the maps they give as they read at that time. -/
def Spec.MadeFrom : World → List JOp → List JOp → Prop
  | _, [], made => made = []
  | w, op :: ops, made => ∃ a w', op.run w = .ok (a, w') ∧
      if Spec.JOp.makes op then ∃ op' rest, made = op' :: rest ∧ SpeltOut w op op' ∧ MadeFrom w' ops rest
      else MadeFrom w' ops made

theorem reads_there {w : World} {k : Nat} {f : JField} {v : JFieldVal} (h : Reads w k f v) :
    ∃ e, w.maps[k]? = some e := by
  obtain ⟨w', h⟩ := h
  cases hk : w.maps[k]? with
  | none => simp only [JOp.run, hk] at h; cases h
  | some e => exact ⟨e, rfl⟩

/-- A map that reads thus, handed over now. -/
structure Emitted.Gives (nb : Prop) (ss : List JVal) (cv nv : JFieldVal) (mp : Str) (t : StrTable JVal)
    (e : Emitted) : Prop where
  sound : e.Sound nb t
  sources : e.Would .sources (.list ss) t
  contents : e.Would .contents cv t
  mappings : e.Would .mappings (.text mp) t
  names : e.Would .names nv t

theorem Emitted.Gives.lasting (nb : Prop) (ss : List JVal) (cv nv : JFieldVal) (mp : Str) :
    Lasting (fun t e => e.Gives nb ss cv nv mp t) :=
  ⟨fun g h => ⟨(Emitted.Sound.lasting nb).mono g h.1, (Would.lasting _ _).mono g h.2, (Would.lasting _ _).mono g h.3,
      (Would.lasting _ _).mono g h.4, (Would.lasting _ _).mono g h.5⟩,
    fun h g => ⟨(Emitted.Sound.lasting nb).get h.1 g, (Would.lasting _ _).get h.2 g, (Would.lasting _ _).get h.3 g,
      (Would.lasting _ _).get h.4 g, (Would.lasting _ _).get h.5 g⟩⟩

theorem Emitted.Gives.move {nb : Prop} {ss : List JVal} {cv nv : JFieldVal} {mp : Str} {t : StrTable JVal}
    {e : Emitted} (h : e.Gives nb ss cv nv mp t) : Emitted.Gives nb ss cv nv mp t { e with wasm := none } :=
  ⟨h.1.move, Would.move h.2, Would.move h.3, Would.move h.4, Would.move h.5⟩

theorem Emitted.Gives.of_reads {nb : Prop} {w : World} {k : Nat} {ss : List JVal} {cv nv : JFieldVal} {mp : Str}
    (hs : ∀ e ∈ w.maps, e.Sound nb w.strs) (h1 : Reads w k .sources (.list ss)) (h2 : Reads w k .contents cv)
    (h3 : Reads w k .mappings (.text mp)) (h4 : Reads w k .names nv) :
    ∃ e, w.maps[k]? = some e ∧ e.Gives nb ss cv nv mp w.strs := by
  obtain ⟨e, he⟩ := reads_there h1
  exact ⟨e, he, hs e (List.mem_of_getElem? he), reads_would h1 he, reads_would h2 he, reads_would h3 he,
    reads_would h4 he⟩

theorem World.give_gives {nb : Prop} {w w' : World} {k : Nat} {e : Emitted} {hd : SmHolder} {ss : List JVal}
    {cv nv : JFieldVal} {mp : Str} (ok : w.strs.Ok) (hk : w.maps[k]? = some e) (h : e.Gives nb ss cv nv mp w.strs)
    (r : w.give (.emitted k) = .ok (hd, w')) :
    Denotes w'.strs hd ss (Spec.JFieldVal.entries cv) (Spec.JFieldVal.entries nv) mp ∧
      ∀ g, hd.gen = some g → g.Sound ∧ ∀ d, hd.data = some d → ∃ m g', g.toSourceMap = .ok (m, g') ∧ m.data = d := by
  obtain ⟨⟨⟨c, hc, -⟩, hw⟩, h1, h2, h3, h4⟩ := h
  refine ⟨World.give_denotes ok hk hc h1 h2 h3 h4 r, World.give_gen r fun k' e' h he => ?_⟩
  cases h
  rw [hk] at he; cases he; exact hw

theorem Denotes.mono {t t' : StrTable JVal} (g : ∃ r, t'.array = t.array ++ r) {hd : SmHolder}
    {ss cs ns : List JVal} {mp : Str} (h : Denotes t hd ss cs ns mp) : Denotes t' hd ss cs ns mp := by
  obtain ⟨d, k0, k1, k2, k3, k4⟩ := h
  exact ⟨d, k0, StrTable.values_mono g k1, StrTable.values_mono g k2, StrTable.values_mono g k3, k4⟩

/-- The new object holds what the statement, spelt out, gives. -/
theorem World.newSms_label {nb : Prop} {U : Pool} {w w' : World} {v n : Str} {map map' : MapArg} {orig : Option Str}
    {inner inner' : Option MapArg} (W : w.Within U) (W' : w'.Within U) (hs : ∀ e ∈ w.maps, e.Sound nb w.strs)
    (e : w.newSms v n map orig inner = .ok w') (hm : SpeltMap w map map') (hi : SpeltOpt w inner inner') :
    ∃ wi op k, w.Same wi ∧ wi.create op k = .ok w' ∧ isNew op = true ∧
      Label w'.strs (some op) (.newSms v n map' orig inner') := by
  have ok := W.strs
  simp only [World.newSms, Except.bind_ok_iff] at e
  obtain ⟨m, h1, i, h2, h3⟩ := e
  have s1 := (w.internNew_same (some v)).trans ((w.internNew (some v)).2.intern_same (some n))
  have ok1 : ((w.internNew (some v)).2.intern (some n)).2.strs.Ok := (ok.addUnchecked _).add _
  have s2 := World.give_same h1
  have okm : m.2.strs.Ok := World.give_ok ok1 h1
  have mid : ∃ w5 : World, m.2.Same w5 ∧ w5.maps = m.2.maps ∧ w5.strs.Ok ∧ w5.giveInner inner = .ok i := by
    cases ht : truthy orig with
    | none => rw [ht] at h2; exact ⟨m.2, .rfl' _, rfl, okm, h2⟩
    | some s => rw [ht] at h2; exact ⟨(m.2.internNew (some s)).2, World.internNew_same _ _, rfl, okm.addUnchecked _, h2⟩
  obtain ⟨w5, s5, hm5, ok5, h2'⟩ := mid
  have s6 := World.giveInner_same h2'
  have sall := s1.trans (s2.trans (s5.trans s6))
  have hstr := (World.create_strs h3).1
  have ext3 : i.2.strs.Ext w'.strs := .of_eq hstr
  have hn : Canon ((w.internNew (some v)).2.intern (some n)).2.strs (· = some n)
      ((w.internNew (some v)).2.intern (some n)).1 :=
    World.intern_canon (w := (w.internNew (some v)).2) (ok.addUnchecked _) (some n)
  have hsIn : ∃ s : Sms, s.In (dom U w'.strs) ∧ s.map = m.1 ∧ s.inner = i.1 := by
    have h3' := h3
    simp only [World.create, World.call, Op.run, Except.map_ok_iff] at h3'
    obtain ⟨y, g5, g6⟩ := h3'
    cases g5
    cases g6
    exact ⟨Sms.create v _ _ m.1 _ i.1, W'.heap _ _ List.getElem?_concat_length, rfl, rfl⟩
  obtain ⟨s, sIn, sm, si⟩ := hsIn
  have mIn : m.1.In (dom U w'.strs) := sm ▸ sIn.map
  have iIn : ∀ x, i.1 = some x → x.In (dom U w'.strs) := fun x hx => sIn.inner x (by rw [si]; exact hx)
  refine ⟨i.2, _, _, sall, h3, rfl, ⟨_, _, _, _, _, rfl, ((hn.grow (s2.trans (s5.trans s6)).ext).grow ext3), ?_, ?_, ?_, ?_⟩⟩
  · intro ss cs ns mp he
    cases map with
    | plain ss' cs' ns' mp' =>
      have hm : map' = _ := hm
      rw [hm] at he; cases he
      simp only [World.give, Except.ok.injEq] at h1
      have := (World.giveData_holds ok1 ss cs ns mp)
      rw [h1] at this
      exact (this.mono (s5.trans s6).ext).mono ext3
    | emitted k =>
      obtain ⟨ss', cv, nv, mp', r1, r2, r3, r4, r5, r6⟩ := hm
      rw [r6] at he; cases he
      obtain ⟨e, hk, hg⟩ := Emitted.Gives.of_reads hs r1 r2 r3 r4
      obtain ⟨k1, k2⟩ := World.give_gives (w := ((w.internNew (some v)).2.intern (some n)).2) ok1 hk
        ((Emitted.Gives.lasting _ _ _ _ _).mono s1.strs hg) h1
      exact .of_denotes mIn (Denotes.mono ext3.array (Denotes.mono (s5.trans s6).ext.array k1)) r5 k2
  · intro he
    subst he
    cases inner with
    | none => simp only [World.giveInner, Except.ok.injEq] at h2'; rw [← h2']
    | some a => obtain ⟨b, hb, -⟩ := hi; cases hb
  · intro ss cs ns mp he
    subst he
    cases inner with
    | none => cases hi
    | some a =>
      obtain ⟨b, hb, hr⟩ := hi
      cases hb
      simp only [World.giveInner, Except.map_ok_iff] at h2'
      obtain ⟨q, q1, q2⟩ := h2'
      cases q2
      refine ⟨q.1, rfl, ?_⟩
      cases a with
      | plain ss' cs' ns' mp' =>
        cases hr
        simp only [World.give, Except.ok.injEq] at q1
        have := (World.giveData_holds ok5 ss cs ns mp)
        rw [q1] at this
        exact this.mono ext3
      | emitted k =>
        obtain ⟨ss', cv, nv, mp', r1, r2, r3, r4, r5, r6⟩ := hr
        cases r6
        obtain ⟨e, hk, hg⟩ := Emitted.Gives.of_reads hs r1 r2 r3 r4
        obtain ⟨e3, hk3, hg3⟩ := (Emitted.Gives.lasting _ _ _ _ _).give
          (w := ((w.internNew (some v)).2.intern (some n)).2) hk
          ((Emitted.Gives.lasting _ _ _ _ _).mono s1.strs hg) (fun _ t e h => h.move) h1
        obtain ⟨k1, k2⟩ := World.give_gives ok5 (by rw [hm5]; exact hk3)
          ((Emitted.Gives.lasting _ _ _ _ _).mono s5.strs hg3) q1
        exact .of_denotes (iIn q.1 rfl) (Denotes.mono ext3.array k1) r5 k2
  · refine StrTable.CallsOpt.mono ext3.array ?_
    cases ht : truthy orig with
    | none => exact ⟨fun _ => rfl, fun s e => by cases e⟩
    | some s =>
      rw [ht] at h2
      have ho := World.giveInner_same h2
      exact ⟨fun e => by (cases e), fun _ e => by cases e; exact ⟨_, rfl, (World.internNew_calls _ _).mono ho.ext.array⟩⟩

/-! ## Whole programs -/

theorem Generator.Wrote.ordered {g : Generator} {d : SmData} (h : g.Wrote d) {qs : List Point}
    (hq : points d.sources d.names d.mappings = some qs) (hs : qs.Pairwise Point.Lt) :
    g.mappings.sort = g.mappings := by
  obtain ⟨ok, ht, hord, m, g', hm, rfl⟩ := h
  have hle : g.mappings.sort.list.Pairwise (fun a b => Mapping.le a b = true) := by
    rw [MappingList.sort_list ht]; exact sortBy_sorted _
  obtain ⟨m', k1, -, -, -, k5⟩ := Generator.toSourceMap_ok ok hle
  rw [hm] at k1; cases k1
  have e : g.mappings.sort.list.map Mapping.point = qs := by
    have : mapPoints m = some qs := hq
    rw [k5] at this
    exact Option.some.inj this
  exact hord (by rw [e]; exact hs)

/-- The map can be read and no two of its positions are the same. -/
def Spec.StrictMap (ss ns : List JVal) (mp : Str) : Prop :=
  ∃ ps, points (idTable ss.length) (idTable ns.length) mp = some ps ∧ ps.Pairwise Point.Lt

theorem StrTable.Holds.stable {t : StrTable JVal} {hd : SmHolder} {ss cs ns : List JVal} {mp : Str}
    (h : t.Holds hd ss cs ns mp) (hs : StrictMap ss ns mp) :
    hd.data.isSome = true ∨ (hd.data = none ∧ ∃ g, hd.gen = some g ∧ g.mappings.sort = g.mappings) := by
  obtain ⟨d, h1, -, rfl, hS, hN, -⟩ := h
  obtain ⟨ps, hp, hlt⟩ := hs
  rcases h1 with rfl | ⟨g, h1, h2 | h2, h3⟩
  · exact .inl rfl
  · refine .inr ⟨h2, g, h1, h3.ordered (qs := byIds d.sources d.names ps) ?_ ?_⟩
    · rw [points_rename, points_renameName, hS.1, hN.1, hp]; rfl
    · rw [byIds, List.map_map, List.pairwise_map]
      exact hlt.imp fun h => h
  · exact .inl (by rw [h2]; rfl)

/-- Maps given as they read are strict. -/
def Spec.JOp.Strict : JOp → Prop
  | .newSms _ _ (.plain ss _ ns mp) _ _ => StrictMap ss ns mp
  | _ => True

/-- With an emitted map there is no inner map. -/
def Spec.JOp.Simple : JOp → Prop
  | .newSms _ _ (.emitted _) _ i => i = none
  | _ => True

theorem JOp.run_given {nb : Prop} {U : Pool} {w w' : World} {A : AHeap} {st : List JThing} {made : List JOp}
    {op op' : JOp} {a : JAnswer} (L : w.Labels made) (I : w.Inv A st) (W : w.Within U) (W' : w'.Within U)
    (hs : ∀ e ∈ w.maps, e.Sound nb w.strs) (hst : ∀ o ∈ w.log, Spec.Op.StableMap o)
    (hsim : Spec.JOp.Simple op) (h : SpeltOut w op op') (hw : Spec.JOp.Strict op') (e : op.run w = .ok (a, w')) :
    w'.Labels (made ++ [op'].filter Spec.JOp.makes) ∧ ∀ o ∈ w'.log, Spec.Op.StableMap o := by
  have steps := JOp.run_steps w op
  rw [e] at steps
  obtain ⟨l, hl, -, hof⟩ := steps
  by_cases hsms : ∃ v n m o i, op = .newSms v n m o i
  · obtain ⟨v, n, m, o, i, rfl⟩ := hsms
    obtain ⟨m', i', rfl, hm, hi⟩ := h
    simp only [JOp.run, Except.map_ok_iff] at e
    obtain ⟨_, e, h2⟩ := e; cases h2
    obtain ⟨wi, op0, k, s, hc, hn, hlab⟩ := World.newSms_label W W' hs e hm hi
    obtain ⟨k1, k2, k3, k4⟩ := World.create_label (I.same s) hn hc
    have L2 := L.later s.later (by rw [s.objs])
    refine ⟨L2.push k1 k3 (by rw [k4]; exact hlab), ?_⟩
    have hlog : w'.log = w.log ++ [op0] := by
      simp only [World.create, Except.map_ok_iff] at hc
      obtain ⟨⟨b, w1⟩, h1, rfl⟩ := hc
      obtain ⟨h, hr, rfl⟩ := World.call_ok h1
      show wi.log ++ [op0] = _
      rw [s.log]
    have hl' : l = [op0] := by
      have := hl.symm.trans hlog
      exact List.append_cancel_left this
    subst hl'
    intro x hx
    rw [hlog] at hx
    rcases List.mem_append.1 hx with hx | hx
    · exact hst x hx
    · simp only [List.mem_cons, List.not_mem_nil, or_false] at hx
      subst hx
      have ho := hof x (by simp)
      obtain ⟨vi, ni, hd, oi, ih, h5, h6, h7, h8, h9⟩ := hlab
      cases h5
      cases m with
      | plain ss cs ns mp =>
        obtain ⟨-, _, _, _, _, hj, -, hpl⟩ := ho
        cases hj
        obtain ⟨-, d, hd', -⟩ := hpl ss cs ns mp rfl
        exact .inl (by rw [hd']; rfl)
      | emitted k =>
        obtain ⟨ss, cv, nv, mp, -, -, -, -, -, rfl⟩ := hm
        have hin : i = none := hsim
        subst hin
        cases hi
        cases h8 rfl
        rcases (h7 _ _ _ _ rfl).stable hw with g | ⟨g1, g2⟩
        · exact .inl g
        · exact .inr ⟨g1, rfl, g2⟩
  · have hop : op' = op := by
      cases op <;> first | exact h | exact absurd ⟨_, _, _, _, _, rfl⟩ hsms
    subst hop
    refine ⟨JOp.run_labels L I W.strs e, ?_⟩
    intro x hx
    rw [hl] at hx
    rcases List.mem_append.1 hx with hx | hx
    · exact hst x hx
    · have ho := hof x hx
      cases x <;> try trivial
      obtain ⟨-, n, m, o', i, rfl, -⟩ := ho
      exact absurd ⟨_, _, _, _, _, rfl⟩ hsms

theorem World.runFrom_given {nb : Prop} {U : Pool} : ∀ {ops : List JOp} {w w' : World} {A : AHeap}
    {st : List JThing} {made0 made : List JOp}, w.Labels made0 → w.Inv A st → w.Within U → w.Lined →
    (∀ e ∈ w.maps, e.Sound nb w.strs) → (∀ o ∈ w.log, Spec.Op.StableMap o) → (∀ op ∈ ops, op.Proper) →
    (∀ op ∈ ops, Spec.JOp.FewLines op) → (∀ op ∈ ops, ∀ f v, v ∈ op.supply f → v ∈ U f) →
    (∀ op ∈ ops, NamesOk nb op) → (∀ op ∈ ops, Spec.JOp.Simple op) → MadeFrom w ops made →
    (∀ op ∈ made, Spec.JOp.Strict op) → w.runFrom ops = .ok w' →
    w'.Labels (made0 ++ made) ∧ ∀ o ∈ w'.log, Spec.Op.StableMap o
  | [], _, _, _, _, _, _, L, _, _, _, _, hst, _, _, _, _, _, hm, _, e => by
    cases e; cases hm; exact ⟨by simpa using L, hst⟩
  | op :: ops, w, w', A, st, made0, made, L, I, W, hl, hs, hst, hp, hf, hU, hn, hsim, hm, hw, e => by
    simp only [World.runFrom, Except.bind_ok_iff] at e
    obtain ⟨⟨a, w1⟩, h1, h2⟩ := e
    obtain ⟨A1, I1⟩ := JOp.run_inv I (hp op (by simp)) h1
    have W1 := JOp.run_within W (hU op (by simp))
    rw [h1] at W1
    have W1 : w1.Within U := W1
    have l1 := JOp.run_lined hl (hf op (by simp))
    rw [h1] at l1
    have l1 : w1.Lined := l1
    have hs1 := JOp.run_sound hs hl (hn op (by simp)) h1
    rw [MadeFrom] at hm
    obtain ⟨a', w1', h1', hm⟩ := hm
    rw [h1] at h1'; cases h1'
    have rest : ∀ {made1 made2 : List JOp}, w1.Labels made1 → (∀ o ∈ w1.log, Spec.Op.StableMap o) →
        MadeFrom w1 ops made2 → (∀ op ∈ made2, Spec.JOp.Strict op) →
        w'.Labels (made1 ++ made2) ∧ ∀ o ∈ w'.log, Spec.Op.StableMap o :=
      fun L1 hst1 hm2 hw2 => World.runFrom_given L1 I1 W1 l1 hs1 hst1 (fun o ho => hp o (by simp [ho]))
        (fun o ho => hf o (by simp [ho])) (fun o ho => hU o (by simp [ho])) (fun o ho => hn o (by simp [ho]))
        (fun o ho => hsim o (by simp [ho])) hm2 hw2 h2
    split at hm
    · rename_i hmk
      obtain ⟨op', made2, rfl, h3, h4⟩ := hm
      obtain ⟨g1, g2⟩ := JOp.run_given L I W W1 hs hst (hsim op (by simp)) h3 (hw op' (by simp)) h1
      have hmk' : Spec.JOp.makes op' = true := by
        cases op <;> first
          | (have h3 : op' = _ := h3; rw [h3]; exact hmk)
          | (obtain ⟨_, _, rfl, _⟩ := h3; rfl)
      simp only [List.filter_cons, hmk', if_true, List.filter_nil] at g1
      have := rest g1 g2 h4 (fun o ho => hw o (by simp [ho]))
      rw [List.append_assoc] at this
      exact this
    · rename_i hmk
      have h3 : SpeltOut w op op := by
        cases op <;> first | rfl | exact absurd rfl hmk
      have hstrict : Spec.JOp.Strict op := by
        cases op <;> first | trivial | exact absurd rfl hmk
      obtain ⟨g1, g2⟩ := JOp.run_given L I W W1 hs hst (hsim op (by simp)) h3 hstrict h1
      have hmk : Spec.JOp.makes op = false := by simpa using hmk
      simp only [List.filter_cons, hmk, Bool.false_eq_true, if_false, List.filter_nil, List.append_nil] at g1
      exact rest g1 g2 hm hw

/-- Names are assigned to emitted maps only in programs all of whose maps have columns. -/
def Spec.NamesFit (ops : List JOp) : Prop :=
  (∀ k l, .set k (.names l) ∉ ops) ∨ ∀ j m, .sourceAndMap j false m ∉ ops

theorem namesOk_of_fit {ops : List JOp} (h : NamesFit ops) :
    ∀ op ∈ ops, NamesOk (∀ k l, .set k (.names l) ∉ ops) op := by
  intro op hop
  cases op <;> try trivial
  · rename_i j c m
    rcases h with h | h
    · exact .inr h
    · cases c with
      | true => exact .inl rfl
      | false => exact absurd hop (h j m)
  · rename_i k a
    intro hn hf
    cases a <;> first | exact absurd hop (hn _ _) | cases hf

theorem World.run_given {ops made : List JOp} {w : World} (hp : ∀ op ∈ ops, op.Proper)
    (hf : ∀ op ∈ ops, Spec.JOp.FewLines op) (hn : NamesFit ops) (hsim : ∀ op ∈ ops, Spec.JOp.Simple op)
    (hm : MadeFrom World.empty ops made) (hw : ∀ op ∈ made, Spec.JOp.Strict op) (e : World.run ops = .ok w) :
    w.Labels made ∧ ∀ o ∈ w.log, Spec.Op.StableMap o := by
  have := World.runFrom_given (made0 := []) (U := supplied ops) (w := World.empty)
    ⟨rfl, fun j p op h => by simp [World.empty] at h⟩ World.empty_inv World.empty_within World.empty_lined
    (fun e he => by simp [World.empty] at he) (fun o ho => by simp [World.empty] at ho) hp hf
    (fun op ho f v hv => List.mem_flatMap.2 ⟨op, ho, hv⟩) (namesOk_of_fit hn) hsim hm hw e
  simpa using this

theorem made_makes : ∀ {ops : List JOp} {w : World} {made : List JOp}, MadeFrom w ops made →
    ∀ op ∈ made, Spec.JOp.makes op = true
  | [], w, made, h, op, ho => by cases h; cases ho
  | o :: ops, w, made, h, op, ho => by
    rw [MadeFrom] at h
    obtain ⟨a, w', -, h⟩ := h
    split at h
    · rename_i hmk
      obtain ⟨op', rest, rfl, h1, h2⟩ := h
      rcases List.mem_cons.1 ho with rfl | ho
      · cases o <;> first
          | (have h1 : op = _ := h1; rw [h1]; exact hmk)
          | (obtain ⟨_, _, rfl, _⟩ := h1; rfl)
      · exact made_makes h2 op ho
    · exact made_makes h op ho

/-! ## The order of first mention -/

theorem Numbered.absorb {t : StrTable JVal} {V : List JVal} (h : Numbered t V) : ∀ {xs : List JVal},
    (∀ x ∈ xs, ∃ i, t.indexOf x = some i) → Numbered t (V ++ xs) := by
  intro xs hx
  have hm : ∀ x ∈ xs, x ∈ V := fun x hm => by
    obtain ⟨i, hi⟩ := hx x hm
    exact h.mem x i hi
  have hi : ∀ x i, t.indexOf x = some i → (V ++ xs).idxOf x = V.idxOf x := fun x i hx => by
    rw [List.idxOf_append, if_pos (h.mem x i hx)]
  refine ⟨h.ok, fun x i hx => List.mem_append_left _ (h.mem x i hx), fun x hm' => ?_, fun x y i j h1 h2 hlt => ?_⟩
  · rcases List.mem_append.1 hm' with k | k
    · exact h.has x k
    · exact hx x k
  · rw [hi x i h1, hi y j h2] at hlt
    exact h.order x y i j h1 h2 hlt

theorem StrTable.Lists.indexed {t : StrTable JVal} {ids : List Int} {vs : List JVal} (h : t.Lists ids vs) :
    ∀ v ∈ vs, ∃ i, t.indexOf v = some i := by
  intro v hv
  obtain ⟨k, hk⟩ := List.getElem?_of_mem hv
  have hlt := (List.getElem?_eq_some_iff.1 hk).1
  obtain ⟨-, x, -, rfl, hi⟩ := h.2 k _ v (List.getElem?_eq_getElem (by rw [h.1]; exact hlt)) hk
  exact ⟨_, hi⟩

theorem World.give_how {w w' : World} {k : Nat} {hd : SmHolder} (r : w.give (.emitted k) = .ok (hd, w')) :
    w'.strs = w.strs ∨ ∃ ss cs ns mp w0, w0.strs = w.strs ∧ World.giveData w0 ss cs ns mp = (hd, w') := by
  simp only [World.give] at r
  split at r
  · cases r
  · split at r
    · cases r; exact .inl rfl
    · simp only [Except.bind_ok_iff, Except.map_ok_iff] at r
      obtain ⟨a, ha, b, hb, c, hc, d, hd', r⟩ := r
      exact .inr ⟨_, _, _, _, { w with maps := w.maps.set _ d.2 }, rfl, r⟩

theorem Numbered.given {nb : Prop} {U : Pool} {w w' : World} {V : List JVal} (h : Numbered w.strs V) (W : w.Within U)
    {a b : MapArg} {hd : SmHolder} (ha : ∀ f v, v ∈ a.supply f → v ∈ U f)
    (hs : ∀ k ss cs ns mp, a = .emitted k → b = .plain ss cs ns mp → none ∉ ss ∧ ∃ e cv nv, w.maps[k]? = some e ∧
      e.Gives nb ss cv nv mp w.strs ∧ cs = Spec.JFieldVal.entries cv ∧ ns = Spec.JFieldVal.entries nv)
    (hb : (∃ ss cs ns mp, a = .plain ss cs ns mp ∧ b = a) ∨ ∃ k ss cs ns mp, a = .emitted k ∧ b = .plain ss cs ns mp)
    (r : w.give a = .ok (hd, w')) : Numbered w'.strs (V ++ b.mentions) := by
  rcases hb with ⟨ss, cs, ns, mp, rfl, rfl⟩ | ⟨k, ss, cs, ns, mp, rfl, rfl⟩
  · exact h.give r
  · obtain ⟨hn, e, cv, nv, hk, hg, rfl, rfl⟩ := hs k ss cs ns mp rfl rfl
    obtain ⟨k1, k2⟩ := World.give_gives h.ok hk hg r
    rcases World.give_how r with he | ⟨ss', cs', ns', mp', w0, h0, hgd⟩
    · have hin := W.give ha
      rw [r] at hin
      obtain ⟨d, -, -, -, l1, l2, -⟩ := StrTable.Holds.of_denotes hin.2 k1 hn k2
      rw [he] at l1 l2 ⊢
      refine h.absorb fun x hx => ?_
      rcases List.mem_append.1 hx with hx | hx
      · exact l1.indexed x hx
      · exact l2.indexed x hx
    · have ok0 : w0.strs.Ok := by rw [h0]; exact h.ok
      have hd2 := World.giveData_denotes (w := w0) ok0 ss' cs' ns' mp'
      have N2 := Numbered.give (w := w0) (V := V) (by rw [h0]; exact h) (ss := ss') (cs := cs') (ns := ns') (mp := mp')
        (d := hd) (w' := w') (by rw [World.give, hgd])
      rw [hgd] at hd2
      have hne : hd.data.isSome = true := by
        have := congrArg (fun p => p.1.data.isSome) hgd
        exact this.symm
      obtain ⟨d, q1, q2, -, q4, -⟩ := k1
      obtain ⟨d', q1', q2', -, q4', -⟩ := hd2
      have : d = d' := by
        rcases q1 with q1 | ⟨q1, -⟩
        · rcases q1' with q1' | ⟨q1', -⟩
          · exact Option.some.inj (q1.symm.trans q1')
          · rw [q1'] at hne; cases hne
        · rw [q1] at hne; cases hne
      subst this
      rw [q2] at q2'; cases q2'
      rw [q4] at q4'; cases q4'
      exact N2

theorem SpeltMap.shape {w : World} {a b : MapArg} (h : SpeltMap w a b) :
    (∃ ss cs ns mp, a = .plain ss cs ns mp ∧ b = a) ∨ ∃ k ss cs ns mp, a = .emitted k ∧ b = .plain ss cs ns mp := by
  cases a with
  | plain ss cs ns mp => exact .inl ⟨_, _, _, _, rfl, h⟩
  | emitted k =>
    obtain ⟨ss, cv, nv, mp, -, -, -, -, -, rfl⟩ := h
    exact .inr ⟨_, _, _, _, _, rfl, rfl⟩

theorem Numbered.newSms {nb : Prop} {U : Pool} {w w' : World} {V : List JVal} (h : Numbered w.strs V)
    (W : w.Within U) {v n : Str} {map map' : MapArg} {orig : Option Str} {inner inner' : Option MapArg}
    (hU : ∀ f x, x ∈ (JOp.newSms v n map orig inner).supply f → x ∈ U f)
    (hs : ∀ e ∈ w.maps, e.Sound nb w.strs)
    (e : w.newSms v n map orig inner = .ok w') (hm : SpeltMap w map map') (hi : SpeltOpt w inner inner') :
    Numbered w'.strs (V ++ Spec.JOp.mentions (.newSms v n map' orig inner')) := by
  have hUm : ∀ f x, x ∈ map.supply f → x ∈ U f := by
    intro f x hx
    cases f with
    | sources => exact hU .sources x (List.mem_cons_of_mem _ (List.mem_append_left _ hx))
    | contents => exact hU .contents x (List.mem_cons_of_mem _
        (List.mem_append_right _ (List.mem_append_left _ hx)))
    | names => exact hU .names x (List.mem_append_left _ hx)
    | source | mappings => cases map <;> simp [MapArg.supply] at hx
  have hUi : ∀ f x, x ∈ supplyOpt inner f → x ∈ U f := by
    intro f x hx
    cases f with
    | sources => exact hU .sources x (List.mem_cons_of_mem _ (List.mem_append_right _ hx))
    | contents => exact hU .contents x (List.mem_cons_of_mem _
        (List.mem_append_right _ (List.mem_append_right _ hx)))
    | names => exact hU .names x (List.mem_append_right _ hx)
    | source | mappings =>
      cases inner with
      | none => simp [supplyOpt] at hx
      | some i => cases i <;> simp [supplyOpt, MapArg.supply] at hx
  simp only [World.newSms, Except.bind_ok_iff] at e
  obtain ⟨m, h1, i, h2, h3⟩ := e
  have s1 := (w.internNew_same (some v)).trans ((w.internNew (some v)).2.intern_same (some n))
  have W1 := ((W.internNew (some v)).1.intern (some n)).1
  have N1 : Numbered ((w.internNew (some v)).2.intern (some n)).2.strs (V ++ [some n]) :=
    (h.addUnchecked (some v)).add (some n)
  have N2 := N1.given W1 hUm (nb := nb) (b := map') (hd := m.1) (w' := m.2) (fun k ss cs ns mp ha hb => by
    subst ha
    obtain ⟨ss', cv, nv, mp', r1, r2, r3, r4, r5, r6⟩ := hm
    rw [r6] at hb; cases hb
    obtain ⟨e, hk, hg⟩ := Emitted.Gives.of_reads hs r1 r2 r3 r4
    exact ⟨r5, e, cv, nv, hk, (Emitted.Gives.lasting _ _ _ _ _).mono s1.strs hg, rfl, rfl⟩) (SpeltMap.shape hm) h1
  have W2 : m.2.Within U := by
    have := W1.give hUm
    rw [h1] at this
    exact this.1
  have mid : ∃ w5 : World, m.2.Same w5 ∧ w5.maps = m.2.maps ∧ Numbered w5.strs (V ++ [some n] ++ map'.mentions) ∧
      w5.Within U ∧ w5.giveInner inner = .ok i := by
    cases ht : truthy orig with
    | none => rw [ht] at h2; exact ⟨m.2, .rfl' _, rfl, N2, W2, h2⟩
    | some s =>
      rw [ht] at h2
      exact ⟨(m.2.internNew (some s)).2, World.internNew_same _ _, rfl, N2.addUnchecked _, (W2.internNew _).1, h2⟩
  obtain ⟨w5, s5, hm5, N5, W5, h2'⟩ := mid
  rw [(World.create_strs h3).1]
  cases inner with
  | none =>
    cases hi
    simp only [World.giveInner, Except.ok.injEq] at h2'
    rw [← h2']
    simpa [Spec.JOp.mentions] using N5
  | some a =>
    obtain ⟨b, rfl, hr⟩ := hi
    simp only [World.giveInner, Except.map_ok_iff] at h2'
    obtain ⟨q, q1, rfl⟩ := h2'
    have := N5.given W5 hUi (nb := nb) (b := b) (hd := q.1) (w' := q.2) (fun k ss cs ns mp ha hb => by
      subst ha
      obtain ⟨ss', cv, nv, mp', r1, r2, r3, r4, r5, r6⟩ := hr
      rw [r6] at hb; cases hb
      obtain ⟨e, hk, hg⟩ := Emitted.Gives.of_reads hs r1 r2 r3 r4
      obtain ⟨e3, hk3, hg3⟩ := (Emitted.Gives.lasting _ _ _ _ _).give
        (w := ((w.internNew (some v)).2.intern (some n)).2) hk
        ((Emitted.Gives.lasting _ _ _ _ _).mono s1.strs hg) (fun _ t e h => h.move) h1
      exact ⟨r5, e3, cv, nv, by rw [hm5]; exact hk3, (Emitted.Gives.lasting _ _ _ _ _).mono s5.strs hg3, rfl, rfl⟩)
      (SpeltMap.shape hr) q1
    simpa [Spec.JOp.mentions] using this

theorem Numbered.runFrom_given {nb : Prop} {U : Pool} : ∀ {ops : List JOp} {w w' : World} {V : List JVal}
    {made : List JOp}, Numbered w.strs V → w.Within U → w.Lined →
    (∀ e ∈ w.maps, e.Sound nb w.strs) → (∀ op ∈ ops, Spec.JOp.FewLines op) →
    (∀ op ∈ ops, ∀ f v, v ∈ op.supply f → v ∈ U f) → (∀ op ∈ ops, NamesOk nb op) → MadeFrom w ops made →
    w.runFrom ops = .ok w' → Numbered w'.strs (V ++ Spec.mentions made)
  | [], _, _, _, _, N, _, _, _, _, _, _, hm, e => by
    cases e; cases hm; simpa [Spec.mentions] using N
  | op :: ops, w, w', V, made, N, W, hl, hs, hf, hU, hn, hm, e => by
    simp only [World.runFrom, Except.bind_ok_iff] at e
    obtain ⟨⟨a, w1⟩, h1, h2⟩ := e
    have W1 := JOp.run_within W (hU op (by simp))
    rw [h1] at W1
    have W1 : w1.Within U := W1
    have l1 := JOp.run_lined hl (hf op (by simp))
    rw [h1] at l1
    have l1 : w1.Lined := l1
    have hs1 := JOp.run_sound hs hl (hn op (by simp)) h1
    rw [MadeFrom] at hm
    obtain ⟨a', w1', h1', hm⟩ := hm
    rw [h1] at h1'; cases h1'
    have rest : ∀ {V1 : List JVal} {made2 : List JOp}, Numbered w1.strs V1 → MadeFrom w1 ops made2 →
        Numbered w'.strs (V1 ++ Spec.mentions made2) :=
      fun N1 hm2 => Numbered.runFrom_given N1 W1 l1 hs1 (fun o ho => hf o (by simp [ho]))
        (fun o ho => hU o (by simp [ho])) (fun o ho => hn o (by simp [ho])) hm2 h2
    have plain : (∀ v n m o i, op ≠ .newSms v n m o i) → Numbered w1.strs (V ++ Spec.JOp.mentions op) := fun hne =>
      N.run (by cases op <;> first | trivial | exact absurd rfl (hne _ _ _ _ _)) h1
    split at hm
    · obtain ⟨op', made2, rfl, h3, h4⟩ := hm
      have N1 : Numbered w1.strs (V ++ Spec.JOp.mentions op') := by
        by_cases hsms : ∃ v n m o i, op = .newSms v n m o i
        · obtain ⟨v, n, m, o, i, rfl⟩ := hsms
          obtain ⟨m', i', rfl, h5, h6⟩ := h3
          simp only [JOp.run, Except.map_ok_iff] at h1
          obtain ⟨_, h1, h2⟩ := h1; cases h2
          exact N.newSms W (hU _ (by simp)) hs h1 h5 h6
        · have hop : op' = op := by
            cases op <;> first | exact h3 | exact absurd ⟨_, _, _, _, _, rfl⟩ hsms
          subst hop
          exact plain fun v n m o i he => hsms ⟨v, n, m, o, i, he⟩
      have := rest N1 h4
      rw [List.append_assoc] at this
      exact this
    · rename_i hmk
      have N1 := plain fun v n m o i he => hmk (by rw [he]; rfl)
      have : Spec.JOp.mentions op = [] := by
        cases op <;> first | rfl | exact absurd rfl hmk
      rw [this, List.append_nil] at N1
      exact rest N1 hm

theorem World.run_numbered_given {ops made : List JOp} {w : World}
    (hf : ∀ op ∈ ops, Spec.JOp.FewLines op) (hn : NamesFit ops) (hm : MadeFrom World.empty ops made)
    (e : World.run ops = .ok w) : Numbered w.strs (Spec.mentions made) := by
  have := Numbered.runFrom_given (V := []) (U := supplied ops) (w := World.empty) Numbered.empty
    World.empty_within World.empty_lined (fun e he => by simp [World.empty] at he) hf
    (fun op ho f v hv => List.mem_flatMap.2 ⟨op, ho, hv⟩) (namesOk_of_fit hn) hm e
  simpa using this

/-- A statement, spelt out, makes what it makes. -/
theorem Spec.SpeltOut.makes {w : World} {op op' : JOp} (h : SpeltOut w op op') {x : JThing} :
    Makes op x → Makes op' x := by
  cases op <;> first
    | (have h : op' = _ := h; rw [h]; exact id)
    | (obtain ⟨_, _, rfl, _⟩ := h; cases x <;> exact id)

theorem made_same : ∀ {ops : List JOp} {w : World} {made : List JOp}, MadeFrom w ops made →
    made.length = (jmade ops).length ∧ ∀ (j : Nat) (op op' : JOp), (jmade ops)[j]? = some op →
      made[j]? = some op' → ∀ x, Makes op x → Makes op' x
  | [], w, made, h => by cases h; exact ⟨rfl, fun j op op' h => by simp [jmade] at h⟩
  | o :: ops, w, made, h => by
    rw [MadeFrom] at h
    obtain ⟨a, w', -, h⟩ := h
    split at h
    · rename_i hmk
      obtain ⟨op', rest, rfl, h1, h2⟩ := h
      have := made_same h2
      have e : jmade (o :: ops) = o :: jmade ops := by simp [jmade, hmk]
      rw [e]
      refine ⟨by simp [this.1], fun j op op'' g1 g2 x hx => ?_⟩
      cases j with
      | zero =>
        simp only [List.getElem?_cons_zero, Option.some.injEq] at g1 g2
        subst g1 g2
        exact h1.makes hx
      | succ j => exact this.2 j op op'' (by simpa using g1) (by simpa using g2) x hx
    · rename_i hmk
      have e : jmade (o :: ops) = jmade ops := by simp [jmade, hmk]
      rw [e]
      exact made_same h

theorem made_together {ops : List JOp} {made : List JOp} (h : MadeFrom World.empty ops made) :
    Together made (jthings ops) := by
  have T : Together (jmade ops) (jthings ops) := by
    exact together ops (made := []) (st := []) ⟨rfl, fun j op x h => by simp at h⟩
  obtain ⟨h1, h2⟩ := made_same h
  refine ⟨h1.trans T.len, fun j op x g1 g2 => ?_⟩
  have hlt : j < (jmade ops).length := by rw [T.len]; exact (List.getElem?_eq_some_iff.1 g2).1
  exact h2 j _ op (List.getElem?_eq_getElem hlt) g1 x (T.each j _ x (List.getElem?_eq_getElem hlt) g2)

end WS
