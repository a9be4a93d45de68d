import Verif.Props.C13
import Verif.Props.C22
import Verif.Props.C32
import Verif.Proofs.Apply
import Verif.Proofs.Api
import Verif.Proofs.NodeText
/-! # C33 Which objects answer and which trap -/

namespace WS
open Spec

/-! ## What the statement talks about -/

/-- What an object made by a constructor call refers to at the end of the history. -/
def Spec.below (ops : List Op) (i : Nat) : Op → List Src
  | .newPrefix _ c => [c]
  | .newReplace c => [c]
  | .newConcat => items ops i
  | _ => []

/-- The object and everything below it are made by allowed constructor calls, and following references
comes to an end. -/
inductive Spec.Sound (ops : List Op) (Allowed : Op → Prop) : Nat → Prop where
  | intro {i : Nat} {op : Op} : (created ops)[i]? = some op → Allowed op →
      (∀ j, .ref j ∈ below ops i op → Sound ops Allowed j) → Sound ops Allowed i

/-- A prefix or replacement over a plain string. -/
def Spec.OverText : Op → Prop
  | .newPrefix _ (.str _) => True
  | .newReplace (.str _) => True
  | _ => False

/-- A map that can be read: well-formed data with numbers within 32 bits and no repeated array entry
(`C32_not_general` shows what repetitions do), or a generator made by the operations on generators. -/
def Spec.ReadableMap (m : SmHolder) : Prop :=
  m.Given ∧
  (∀ d, m.data = some d → ∃ ps, points d.sources d.names d.mappings = some ps ∧ (∀ p ∈ ps, p.Small) ∧
    (d.sources.length ≤ 4294967296 ∧ d.sources.Nodup) ∧ d.names.length ≤ 4294967296 ∧ d.names.Nodup) ∧
  ∀ g, m.gen = some g → ∃ a r ps, Made a r g ps

/-- The maps given to a `SourceMapSource` can be read. -/
def Spec.MapsReadable : Op → Prop
  | .newSms _ _ _ m _ inner => ReadableMap m ∧ ∀ ih, inner = some ih → ReadableMap ih
  | _ => True

/-! ## Every node tree can be written -/

/-- A mapping that can be written. -/
structure Generator.Writable (g : Generator) : Prop where
  lines : ∀ m ∈ g.mappings.list, 1 ≤ m.generated.1
  original : ∀ m ∈ g.mappings.list, ∀ s, m.source = some s → m.original.isSome = true
  srcIn : ∀ m ∈ g.mappings.list, ∀ s, m.source = some s → (g.sources.lookup s).isSome = true
  nameIn : ∀ m ∈ g.mappings.list, ∀ n, m.name = some n → (g.names.lookup n).isSome = true

theorem lookup_amOrInsert_some {l : List (Int × Nat)} {k k' : Int} {v : Nat}
    (h : (l.lookup k').isSome = true ∨ k' = k) : ((amOrInsert l k v).lookup k').isSome = true := by
  rw [lookup_amOrInsert]
  split
  · rfl
  · rename_i hne
    rcases h with h | h
    · exact h
    · exact absurd h hne

theorem Generator.addMapping_tables (g : Generator) (m : Mapping) :
    (g.addMapping m).sources = (match m.source with
      | some s => amOrInsert g.sources s g.sources.length | none => g.sources) ∧
    (g.addMapping m).names = (match m.name with
      | some n => amOrInsert g.names n g.names.length | none => g.names) := by
  unfold Generator.addMapping Generator.addSource Generator.addName
  cases m.source <;> cases m.name <;> exact ⟨rfl, rfl⟩

theorem Generator.addMapping_writable {g : Generator} (h : g.Writable) {m : Mapping}
    (hl : 1 ≤ m.generated.1) (ho : ∀ s, m.source = some s → m.original.isSome = true) :
    (g.addMapping m).Writable := by
  have hmap := g.addMapping_mappings m
  obtain ⟨hs, hn⟩ := g.addMapping_tables m
  have hmem : ∀ x ∈ (g.addMapping m).mappings.list, x ∈ g.mappings.list ∨ x = m := by
    intro x hx
    rw [hmap, MappingList.add_list] at hx
    simpa using hx
  refine ⟨?_, ?_, ?_, ?_⟩
  · intro x hx
    rcases hmem x hx with hx | rfl
    · exact h.lines x hx
    · exact hl
  · intro x hx
    rcases hmem x hx with hx | rfl
    · exact h.original x hx
    · exact ho
  · intro x hx s es
    rw [hs]
    rcases hmem x hx with hx | rfl
    · have := h.srcIn x hx s es
      split
      · exact lookup_amOrInsert_some (.inl this)
      · exact this
    · rw [es]
      exact lookup_amOrInsert_some (.inr rfl)
  · intro x hx s es
    rw [hn]
    rcases hmem x hx with hx | rfl
    · have := h.nameIn x hx s es
      split
      · exact lookup_amOrInsert_some (.inl this)
      · exact this
    · rw [es]
      exact lookup_amOrInsert_some (.inr rfl)

theorem serLoop_total {sources names : List (Int × Nat)} : ∀ (ms : List Mapping) (b : Bool) (st : SerState),
    (∀ m ∈ ms, st.gen.1 ≤ m.generated.1) →
    ms.Pairwise (fun a b => a.generated.1 ≤ b.generated.1) →
    (∀ m ∈ ms, ∀ s, m.source = some s → m.original.isSome = true) →
    (∀ m ∈ ms, ∀ s, m.source = some s → (sources.lookup s).isSome = true) →
    (∀ m ∈ ms, ∀ n, m.name = some n → (names.lookup n).isSome = true) →
    ∃ s, serLoop sources names b st ms = .ok s
  | [], _, _, _, _, _, _, _ => ⟨[], rfl⟩
  | m :: ms, b, st, h1, h2, h3, h4, h5 => by
    rw [List.pairwise_cons] at h2
    have hsep : ∃ sep st1, serSep st b m = .ok (sep, st1) ∧ st1.gen.1 = m.generated.1 := by
      unfold serSep
      have := h1 m (by simp)
      split
      · rw [if_neg (by omega)]
        exact ⟨_, _, rfl, rfl⟩
      · rename_i hne
        exact ⟨_, _, rfl, by omega⟩
    obtain ⟨sep, st1, e1, hg1⟩ := hsep
    have hfs : ∃ fs st2, serFields sources names st1 m = .ok (fs, st2) ∧ st2.gen.1 = m.generated.1 := by
      unfold serFields
      dsimp only
      split
      · exact ⟨_, _, rfl, hg1⟩
      · rename_i s hs
        obtain ⟨si, hsi⟩ := Option.isSome_iff_exists.1 (h4 m (by simp) s hs)
        obtain ⟨⟨ol, oc⟩, ho⟩ := Option.isSome_iff_exists.1 (h3 m (by simp) s hs)
        rw [hsi, ho]
        dsimp only
        split
        · exact ⟨_, _, rfl, hg1⟩
        · rename_i n hn
          obtain ⟨ni, hni⟩ := Option.isSome_iff_exists.1 (h5 m (by simp) n hn)
          rw [hni]
          exact ⟨_, _, rfl, hg1⟩
    obtain ⟨fs, st2, e2, hg2⟩ := hfs
    obtain ⟨r, e3⟩ := serLoop_total (sources := sources) (names := names) ms true st2
      (fun x hx => by rw [hg2]; exact h2.1 x hx) h2.2
      (fun x hx => h3 x (by simp [hx])) (fun x hx => h4 x (by simp [hx]))
      (fun x hx => h5 x (by simp [hx]))
    exact ⟨sep ++ fs ++ r, by rw [serLoop, e1]; dsimp only; rw [e2]; dsimp only; rw [e3]⟩

theorem Generator.Writable.toSourceMap {g : Generator} (h : g.Writable) (ht : g.mappings.Truthful) :
    ∃ r, g.toSourceMap = .ok r := by
  have hs : g.mappings.sort.list.Pairwise (fun a b => Mapping.le a b = true) := by
    rw [MappingList.sort_list ht]; exact sortBy_sorted _
  have hp : ∀ m, m ∈ g.mappings.sort.list ↔ m ∈ g.mappings.list := fun m => g.mappings.sort_perm.mem_iff
  obtain ⟨s, e⟩ := serLoop_total (sources := g.sources) (names := g.names) g.mappings.sort.list false {}
    (fun m hm => h.lines m ((hp m).1 hm)) (sorted_lines hs)
    (fun m hm => h.original m ((hp m).1 hm)) (fun m hm => h.srcIn m ((hp m).1 hm))
    (fun m hm => h.nameIn m ((hp m).1 hm))
  have e' : g.serializeMappings = .ok (s, { g with mappings := g.mappings.sort }) := by
    simp only [Generator.serializeMappings]
    rw [e]
  exact ⟨_, by rw [Generator.toSourceMap, e']⟩

/-- What the walk keeps for every tree, whatever its positions are. -/
structure WalkSafe (c : WalkCtx) : Prop where
  writable : c.map.Writable
  truthful : c.map.mappings.Truthful
  lastMax : c.map.mappings.LastMax
  line : 1 ≤ c.gen.1

theorem WalkSafe.add {c : WalkCtx} (h : WalkSafe c) {m : Mapping} (hl : 1 ≤ m.generated.1)
    (ho : ∀ s, m.source = some s → m.original.isSome = true) (d : WalkCtx)
    (hm : d.map = c.map.addMapping m) (hd : 1 ≤ d.gen.1) : WalkSafe d := by
  have hadd := MappingList.add_inv h.truthful h.lastMax m
  have hmap := c.map.addMapping_mappings m
  exact ⟨by rw [hm]; exact Generator.addMapping_writable h.writable hl ho,
    by rw [hm, hmap]; exact hadd.1, by rw [hm, hmap]; exact hadd.2, hd⟩

theorem chunkHead_safe {c : WalkCtx} (h : WalkSafe c) (chunk : Str) (src : Option Int)
    (pos : Option (Nat × Nat)) (name : Option Int) :
    WalkSafe (chunkHead c chunk src pos name) ∧
    ((chunkHead c chunk src pos name).active = true → pos.isSome = true) := by
  unfold chunkHead
  dsimp only
  split
  · rename_i hs
    obtain ⟨_, hp⟩ := Bool.and_eq_true_iff.1 hs
    refine ⟨?_, fun _ => hp⟩
    split
    · exact h.add (m := { source := src, original := pos, generated := c.gen, name }) h.line
        (fun _ _ => hp) _ rfl h.line
    · exact ⟨h.writable, h.truthful, h.lastMax, h.line⟩
  · split
    · refine ⟨?_, fun hh => by cases hh⟩
      exact h.add (m := { source := none, original := none, generated := c.gen, name := none }) h.line
        (fun _ hh => by cases hh) _ rfl h.line
    · rename_i ha
      exact ⟨⟨h.writable, h.truthful, h.lastMax, h.line⟩, fun hh => absurd hh ha⟩

theorem chunkChars_safe (src : Option Int) (pos : Option (Nat × Nat)) (name : Option Int) :
    ∀ (rest : Str) {c : WalkCtx}, WalkSafe c → (c.active = true → pos.isSome = true) →
    WalkSafe (chunkChars src pos name c rest) := by
  intro rest
  induction rest with
  | nil => intro c h _; exact h
  | cons ch rest ih =>
    intro c h ha
    rw [chunkChars]
    split
    · dsimp only
      split
      · exact ih ⟨h.writable, h.truthful, h.lastMax, by simp⟩ (fun hh => by cases hh)
      · by_cases hact : c.active = true
        · rw [if_pos hact]
          apply ih
          · exact h.add (m := { source := src, original := pos,
                                generated := (c.gen.1 + 1, 0), name }) (by simp)
              (fun _ _ => ha hact) _ rfl (by simp)
          · exact fun _ => ha hact
        · rw [if_neg hact]
          exact ih ⟨h.writable, h.truthful, h.lastMax, by simp⟩ ha
    · exact ih ⟨h.writable, h.truthful, h.lastMax, h.line⟩ ha

theorem processChunk_safe {c : WalkCtx} (h : WalkSafe c) (chunk : Str) (src : Option Int)
    (pos : Option (Nat × Nat)) (name : Option Int) : WalkSafe (processChunk c chunk src pos name) := by
  obtain ⟨h1, h2⟩ := chunkHead_safe h chunk src pos name
  exact chunkChars_safe src pos name chunk h1 h2

theorem processContents_safe (cs : List (Int × Int)) : ∀ {c : WalkCtx}, WalkSafe c →
    WalkSafe (cs.foldl processContent c) := by
  induction cs with
  | nil => intro c h; exact h
  | cons p cs ih =>
    intro c h
    exact ih ⟨⟨h.writable.lines, h.writable.original, h.writable.srcIn, h.writable.nameIn⟩,
      h.truthful, h.lastMax, h.line⟩

mutual
  theorem SmNode.walk_safe : ∀ (n : SmNode) {c : WalkCtx}, WalkSafe c → WalkSafe (n.walk c)
    | .str s, c, h => by
      rw [SmNode.walk]
      exact processChunk_safe h s none none none
    | .node pos src name cs ch, c, h => by
      rw [SmNode.walk]
      exact processContents_safe cs (SmNode.walkList_safe pos src name ch h)
  theorem SmNode.walkList_safe (pos : Option (Nat × Nat)) (src name : Option Int) :
      ∀ (ch : List SmNode) {c : WalkCtx}, WalkSafe c → WalkSafe (SmNode.walkList pos src name ch c)
    | [], c, h => by rw [SmNode.walkList]; exact h
    | .str s :: rest, c, h => by
      rw [SmNode.walkList]
      exact SmNode.walkList_safe pos src name rest (processChunk_safe h s src pos name)
    | .node p s n cs ch :: rest, c, h => by
      rw [SmNode.walkList]
      exact SmNode.walkList_safe pos src name rest (SmNode.walk_safe (.node p s n cs ch) h)
end

/-- Every node tree can be rendered, whatever positions it holds. -/
theorem SmNode.rendered (n : SmNode) (file : Option Int) (root : Option Str) :
    ∃ r, n.toStringWithSourceMap file root = .ok r := by
  have h := SmNode.walk_safe n (c := WalkCtx.new file root)
    ⟨⟨by simp [WalkCtx.new, Generator.new, MappingList.new], by simp [WalkCtx.new, Generator.new, MappingList.new],
      by simp [WalkCtx.new, Generator.new, MappingList.new], by simp [WalkCtx.new, Generator.new, MappingList.new]⟩,
      fun _ => List.Pairwise.nil, rfl, Nat.le_refl _⟩
  obtain ⟨⟨m, g⟩, e⟩ := h.writable.toSourceMap h.truthful
  unfold SmNode.toStringWithSourceMap
  dsimp only
  rw [e]
  exact ⟨_, rfl⟩

/-! ## A `SourceMapSource` with readable maps answers, now and after any reads -/

/-- What reads keep of the pair of caches. -/
structure SmHolder.Safe (m : SmHolder) : Prop where
  data : ∀ d, m.data = some d → ∃ ss, decode d.mappings = some ss
  gen : ∀ g, m.gen = some g → g.Ok ∧ g.mappings.Truthful
  parse : m.gen = none → ∃ d, m.data = some d ∧
    ∃ g, Generator.fromSourceMap d.sources d.contents d.mappings d.names none none true = .ok g ∧
      g.Ok ∧ g.mappings.Truthful

theorem points_decode {ss ns : List Int} {s : Str} {ps : List Point} (h : points ss ns s = some ps) :
    ∃ y, decode s = some y := by
  unfold points at h
  split at h
  · cases h
  · rename_i y e; exact ⟨y, e⟩

theorem Spec.ReadableMap.safe {m : SmHolder} (h : ReadableMap m) : m.Safe := by
  obtain ⟨h1, h2, h3⟩ := h
  refine ⟨?_, ?_, ?_⟩
  · intro d hd
    obtain ⟨ps, hp, _⟩ := h2 d hd
    exact points_decode hp
  · intro g hg
    obtain ⟨a, r, ps, hm⟩ := h3 g hg
    exact ⟨hm.inv.1, hm.inv.2.1⟩
  · intro hn
    rcases h1 with h1 | h1
    · obtain ⟨d, hd⟩ := Option.isSome_iff_exists.1 h1
      obtain ⟨ps, hp, hsm, ⟨hs1, hs2⟩, hn1, hn2⟩ := h2 d hd
      obtain ⟨g, e, h4, h5, _⟩ := fromSourceMap_ok (cs := d.contents) none none true hp hsm hs1 hn1
        (fun _ => ⟨hs2, hn2⟩)
      exact ⟨d, hd, g, e, h4, h5⟩
    · rw [hn] at h1; cases h1

theorem SmHolder.Safe.getGen {m : SmHolder} (h : m.Safe) :
    ∃ g m', m.getGen = .ok (g, m') ∧ g.Ok ∧ g.mappings.Truthful ∧ m'.data = m.data := by
  unfold SmHolder.getGen
  cases hg : m.gen with
  | some g =>
    obtain ⟨h1, h2⟩ := h.gen g hg
    exact ⟨g, m, rfl, h1, h2, rfl⟩
  | none =>
    obtain ⟨d, hd, g, e, h1, h2⟩ := h.parse hg
    rw [hd]
    dsimp only
    rw [e]
    exact ⟨g, _, rfl, h1, h2, hd ▸ rfl⟩

/-- A generator kept with the data read before. -/
theorem SmHolder.Safe.withGen {m m' : SmHolder} (h : m.Safe) {g : Generator} (hd : m'.data = m.data)
    (hg : m'.gen = some g) (h1 : g.Ok) (h2 : g.mappings.Truthful) : m'.Safe := by
  refine ⟨by rw [hd]; exact h.data, ?_, ?_⟩
  · intro g' e
    rw [hg] at e; cases e
    exact ⟨h1, h2⟩
  · intro e; rw [hg] at e; cases e

theorem SmHolder.Safe.getData {m : SmHolder} (h : m.Safe) :
    ∃ d m', m.getData = .ok (d, m') ∧ (∃ ss, decode d.mappings = some ss) ∧ m'.Safe := by
  unfold SmHolder.getData
  cases hd : m.data with
  | some d => exact ⟨d, m, rfl, h.data d hd, h⟩
  | none =>
    cases hg : m.gen with
    | none =>
      obtain ⟨d, hd', _⟩ := h.parse hg
      rw [hd] at hd'; cases hd'
    | some g =>
      obtain ⟨h1, h2⟩ := h.gen g hg
      have hs : g.mappings.sort.list.Pairwise (fun a b => Mapping.le a b = true) := by
        rw [MappingList.sort_list h2]; exact sortBy_sorted _
      obtain ⟨sm, e, _, _, _, hp⟩ := Generator.toSourceMap_ok h1 hs
      dsimp only
      rw [e]
      have hdec := points_decode hp
      refine ⟨_, _, rfl, hdec, ?_, ?_, ?_⟩
      · intro d e; cases e; exact hdec
      · intro g' e; cases e; exact ⟨Generator.sort_ok h1, fun _ => hs⟩
      · intro e; cases e

/-- What reads keep of a `SourceMapSource`. -/
structure Sms.Safe (s : Sms) : Prop where
  map : s.map.Safe
  inner : ∀ ih, s.inner = some ih → ih.Safe

theorem Sms.Safe.node {s : Sms} (h : s.Safe) : ∃ n s', s.node = .ok (n, s') ∧ s'.Safe := by
  obtain ⟨g, m', e1, hok, htr, hd⟩ := h.map.getGen
  have hgm := getGen_map e1
  have text := fun g => fromString_text s.value g
  unfold Sms.node
  rw [e1]
  dsimp only
  cases hi : s.inner with
  | none =>
    obtain ⟨n, e, _⟩ := text g
    dsimp only
    rw [e]
    exact ⟨n, _, rfl, h.map.withGen hd hgm.1 hok htr, fun ih e => by cases e⟩
  | some ih =>
    obtain ⟨ig, ih', e2, iok, itr, ihd⟩ := (h.inner ih hi).getGen
    dsimp only
    rw [e2]
    dsimp only
    have hG : ∀ g0 : Generator, g0 = (if s.original.isSome = true then g.setSourceContent s.name s.original
        else g) → g0.Ok ∧ g0.mappings.Truthful := by
      rintro g0 rfl
      split
      · refine ⟨Generator.setContent_ok hok _ _, ?_⟩
        have : (g.setSourceContent s.name s.original).mappings = g.mappings := by
          unfold Generator.setSourceContent; split <;> rfl
        rw [this]; exact htr
      · exact ⟨hok, htr⟩
    generalize hg0 : (if s.original.isSome = true then g.setSourceContent s.name s.original else g) = g0
    obtain ⟨h3, h4⟩ := hG g0 hg0.symm
    have happ : ∃ g2 ig2, (if s.innerApplied = true then (.ok (g0, ig) : M _)
        else g0.applySourceMap ig (some s.name)) = .ok (g2, ig2) ∧ g2.Ok ∧ g2.mappings.Truthful ∧
        ig2.Ok ∧ ig2.mappings.Truthful := by
      split
      · exact ⟨g0, ig, rfl, h3, h4, iok, itr⟩
      · have : ∃ q, g0.applySourceMap ig (some s.name) = .ok q := by
          unfold Generator.applySourceMap
          exact ⟨_, rfl⟩
        obtain ⟨⟨g2, ig2⟩, e⟩ := this
        obtain ⟨f, _, k1, k2, _, k4⟩ := applySourceMap_ok h3 iok itr e
        refine ⟨g2, ig2, e, k1, fun hh => (by rw [k2] at hh; cases hh), ?_⟩
        rcases k4 with rfl | rfl
        · exact ⟨iok, itr⟩
        · exact ⟨Generator.sort_ok iok, fun _ => by
            rw [MappingList.sort_list itr]; exact sortBy_sorted _⟩
    obtain ⟨g2, ig2, e3, k1, k2, k3, k4⟩ := happ
    rw [e3]
    dsimp only
    obtain ⟨n, e4, _⟩ := text g2
    rw [e4]
    refine ⟨n, _, rfl, h.map.withGen hd rfl k1 k2, ?_⟩
    intro ih2 e
    cases e
    exact (h.inner ih hi).withGen ihd rfl k3 k4

theorem Sms.Safe.listMap {s : Sms} (h : s.Safe) (b : Bool) :
    ∃ m s', s.listMap b = .ok (m, s') ∧ s'.Safe := by
  unfold Sms.listMap
  cases b with
  | false => exact ⟨_, _, rfl, h⟩
  | true =>
    simp only [Bool.not_true, Bool.false_eq_true, if_false]
    obtain ⟨d, m', e, ⟨ss, hdec⟩, hm⟩ := h.map.getData
    rw [e]
    dsimp only
    obtain ⟨m, e2⟩ := (C13_text s.value d.sources d.contents d.mappings).2 ss hdec
    rw [e2]
    exact ⟨m, _, rfl, hm, h.inner⟩

theorem Sms.Safe.reads {s₀ s : Sms} (h : s₀.Safe) (hr : Sms.Reads s₀ s) : s.Safe := by
  induction hr with
  | refl => exact h
  | node _ e ih =>
    obtain ⟨n, s', e', h'⟩ := ih.node
    rw [e] at e'; cases e'; exact h'
  | @listMap s s' b m _ e ih =>
    obtain ⟨n, s', e', h'⟩ := ih.listMap b
    rw [e] at e'; cases e'; exact h'

/-! ## Object graphs -/

theorem eachChild_ok {α : Type _} {A : AHeap} {f : Heap → Src → M (α × Heap)} : ∀ (cs : List Src),
    (∀ c ∈ cs, ∀ h, Abs A h → ∃ a h', f h c = .ok (a, h') ∧ Abs A h') →
    ∀ h, Abs A h → ∃ as h', eachChild f h cs = .ok (as, h') ∧ Abs A h'
  | [], _, h, H => ⟨[], h, rfl, H⟩
  | c :: cs, hf, h, H => by
    obtain ⟨a, h1, e1, H1⟩ := hf c (by simp) h H
    obtain ⟨as, h2, e2, H2⟩ := eachChild_ok cs (fun c hc => hf c (by simp [hc])) h1 H1
    exact ⟨a :: as, h2, by rw [eachChild, e1]; dsimp only; rw [e2], H2⟩

/-- No prefix or replacement over a plain string, and `SourceMapSource`s as wished. -/
def AObj.Fine (P : Sms → Prop) : AObj → Prop
  | .prefixed _ (.str _) => False
  | .replace (.str _) _ => False
  | .sms s => P s
  | _ => True

/-- `node()` answers, now and after any reads. -/
def Sms.NodeSafe (s₀ : Sms) : Prop := ∀ s, Sms.Reads s₀ s → ∃ n s', s.node = .ok (n, s')

/-- `Spec.Sound` on objects. -/
inductive ASound (A : AHeap) (P : AObj → Prop) : Nat → Prop where
  | intro {i : Nat} {a : AObj} : A[i]? = some a → P a →
      (∀ j, .ref j ∈ a.children → ASound A P j) → ASound A P i

theorem ASound.acc {A : AHeap} {P : AObj → Prop} {i : Nat} (h : ASound A P i) : Acc (Child A) i := by
  induction h with
  | intro ha _ _ ih =>
    constructor
    rintro j ⟨b, hb, hj⟩
    rw [ha] at hb; cases hb
    exact ih j hj

theorem ASound.lt {A : AHeap} {P : AObj → Prop} {i : Nat} (h : ASound A P i) : i < A.length := by
  cases h with
  | intro ha => exact (List.getElem?_eq_some_iff.1 ha).1

theorem asound_of_acc {A : AHeap} (V : A.Valid) {i : Nat} (h : Acc (Child A) i) :
    i < A.length → ASound A (fun _ => True) i := by
  induction h with
  | intro i _ ih =>
    intro hi
    refine .intro (List.getElem?_eq_getElem hi) trivial ?_
    intro j hj
    have := V i _ (List.getElem?_eq_getElem hi) _ hj
    exact ih j ⟨_, List.getElem?_eq_getElem hi, hj⟩ (by simpa [Src.validA] using this)

theorem ASound.mono {A : AHeap} {P Q : AObj → Prop} (hPQ : ∀ a, P a → Q a) {i : Nat}
    (h : ASound A P i) : ASound A Q i := by
  induction h with
  | intro ha hp _ ih => exact .intro ha (hPQ _ hp) ih

theorem AObj.Fine.nodeSafe {a : AObj} (h : a.Fine Sms.Safe) : a.Fine Sms.NodeSafe := by
  cases a with
  | sms s =>
    intro s' hr
    obtain ⟨n, s'', e, _⟩ := (Sms.Safe.reads h hr).node
    exact ⟨n, s'', e⟩
  | prefixed p c => cases c with
    | str s => exact h
    | ref j => trivial
  | replace c cs => cases c with
    | str s => exact h
    | ref j => trivial
  | _ => trivial

theorem hNode_answers {A : AHeap} (cols mod : Bool) {i : Nat} (hs : ASound A (AObj.Fine Sms.NodeSafe) i) :
    ∀ t, Unfolds A (.ref i) t → ∀ fuel busy h, Going A fuel busy t.depth → Abs A h →
      ∃ n h', hNode cols mod fuel h busy (.ref i) = .ok (n, h') ∧ Abs A h' ∧ n.IsNode := by
  induction hs with
  | @intro i a ha hp hc ih =>
    intro t u fuel busy h g H
    obtain ⟨f, rfl, _⟩ := g.pos
    have nb := g.notBusy u
    -- what is below answers
    have down : ∀ j, .ref j ∈ a.children → ∀ t', Unfolds A (.ref j) t' → t'.depth < t.depth →
        ∀ h, Abs A h → ∃ n h', hNode cols mod f h (i :: busy) (.ref j) = .ok (n, h') ∧ Abs A h' ∧
          n.IsNode := fun j hj t' u' hd h H => ih j hj t' u' f (i :: busy) h (g.down u ha hd) H
    have close : ∀ n h', hNode cols mod (f + 1) h busy (.ref i) = .ok (n, h') → n.IsNode →
        ∃ n h', hNode cols mod (f + 1) h busy (.ref i) = .ok (n, h') ∧ Abs A h' ∧ n.IsNode :=
      fun n h' e hn => ⟨n, h', e, hNode_abs A cols mod _ _ _ _ _ _ H e, hn⟩
    obtain ⟨o, ho, hao⟩ := H.getSome ha
    cases hao with
    | raw v => exact close (rawNode v) h (by simp only [hNode, nb, if_false, ho]) trivial
    | original v n k => exact close (originalNode cols v n k) h (by simp only [hNode, nb, if_false, ho]) trivial
    | l2l v n k => exact close (l2lNode v n k) h (by simp only [hNode, nb, if_false, ho]) trivial
    | @sms s₀ s hr =>
      obtain ⟨n, s', e⟩ := hp s hr
      exact close n (h.set i (.sms s')) (by simp only [hNode, nb, if_false, ho, e]) (Sms.node_text e).2.1
    | prefixed p c =>
      cases c with
      | str s => exact hp.elim
      | ref j =>
        cases u with
        | prefixed e u' =>
          rw [ha] at e; cases e
          obtain ⟨n, h', e, H', hn⟩ := down j (by simp [AObj.children]) _ u' (by simp [Tree.depth]) h H
          exact close (prefixNode p n) h' (by simp only [hNode, nb, if_false, ho, e])
            (prefixNode_leaves p hn).1
        | _ e => rw [ha] at e; cases e
    | @replace c cs rs b hsim =>
      cases c with
      | str s => exact hp.elim
      | ref j =>
        cases u with
        | replace e u' =>
          rw [ha] at e; cases e
          have H1 : Abs A (h.set i (.replace (.ref j) (sortRepls rs b) true)) :=
            H.set ha (.replace hsim.afterSort)
          obtain ⟨n, h', e, H', hn⟩ := down j (by simp [AObj.children]) _ u' (by simp [Tree.depth]) _ H1
          obtain ⟨n', e', hn', _⟩ := replaceNode_leaves hn (sortRepls rs b)
          exact close n' h' (by simp only [hNode, nb, if_false, ho, e, e']) hn'
        | _ e => rw [ha] at e; cases e
    | concat cs =>
      cases u with
      | @concat _ cs' ts e hl hk =>
        rw [ha] at e; cases e
        have key : ∃ ns h', hNode cols mod (f + 1) h busy (.ref i) =
            .ok (SmNode.mkVec none none none ns, h') := by
          simp only [hNode, nb, if_false, ho]
          generalize hx : eachChild _ h cs = x
          have hc : ∃ as h', x = .ok (as, h') ∧ Abs A h' := by
            rw [← hx]
            refine eachChild_ok cs ?_ h H
            intro c hc h H
            cases c with
            | str s => exact ⟨_, _, rfl, H⟩
            | ref j =>
              obtain ⟨k, hk'⟩ := List.mem_iff_getElem?.1 hc
              have hlt := (List.getElem?_eq_some_iff.1 hk').1
              have ht : ts[k]? = some ts[k] := List.getElem?_eq_getElem (by omega)
              obtain ⟨n, h', e, H', _⟩ := down j (by simpa [AObj.children] using hc) ts[k] (hk k _ _ hk' ht)
                (by have := Tree.depth_le_depths ht; simp [Tree.depth]; omega) h H
              exact ⟨n, h', e, H'⟩
          obtain ⟨ns, h', rfl, _⟩ := hc
          exact ⟨ns, h', rfl⟩
        obtain ⟨ns, h', e⟩ := key
        exact close _ h' e trivial
      | _ e => rw [ha] at e; cases e

/-- `listMap()` answers, now and after any reads. -/
def Sms.LinesSafe (s₀ : Sms) : Prop := ∀ s, Sms.Reads s₀ s → ∀ b, ∃ m s', s.listMap b = .ok (m, s')

/-- The same for one value of `module`. -/
def Sms.LinesSafeAt (b : Bool) (s₀ : Sms) : Prop := ∀ s, Sms.Reads s₀ s → ∃ m s', s.listMap b = .ok (m, s')

theorem Sms.LinesSafe.at {s₀ : Sms} (h : s₀.LinesSafe) (b : Bool) : s₀.LinesSafeAt b := fun s hr => h s hr b

theorem AObj.Fine.imp {P Q : Sms → Prop} (hPQ : ∀ s, P s → Q s) {a : AObj} (h : a.Fine P) : a.Fine Q := by
  cases a with
  | sms s => exact hPQ s h
  | prefixed p c => cases c with
    | str s => exact h
    | ref j => trivial
  | replace c cs => cases c with
    | str s => exact h
    | ref j => trivial
  | _ => trivial

theorem Sms.Safe.linesSafe {s₀ : Sms} (h : s₀.Safe) : s₀.LinesSafe := by
  intro s hr b
  obtain ⟨m, s', e, _⟩ := (Sms.Safe.reads h hr).listMap b
  exact ⟨m, s', e⟩

theorem hListMap_answers {A : AHeap} (cols mod : Bool) {i : Nat} (hs : ASound A (AObj.Fine (Sms.LinesSafeAt mod)) i) :
    ∀ t, Unfolds A (.ref i) t → ∀ fuel busy h, Going A fuel busy t.depth → Abs A h →
      ∃ m h', hListMap cols mod fuel h busy (.ref i) = .ok (m, h') ∧ Abs A h' := by
  induction hs with
  | @intro i a ha hp hc ih =>
    intro t u fuel busy h g H
    obtain ⟨f, rfl, _⟩ := g.pos
    have nb := g.notBusy u
    have down : ∀ j, .ref j ∈ a.children → ∀ t', Unfolds A (.ref j) t' → t'.depth < t.depth →
        ∀ h, Abs A h → ∃ m h', hListMap cols mod f h (i :: busy) (.ref j) = .ok (m, h') ∧ Abs A h' :=
      fun j hj t' u' hd h H => ih j hj t' u' f (i :: busy) h (g.down u ha hd) H
    have close : ∀ m h', hListMap cols mod (f + 1) h busy (.ref i) = .ok (m, h') →
        ∃ m h', hListMap cols mod (f + 1) h busy (.ref i) = .ok (m, h') ∧ Abs A h' :=
      fun m h' e => ⟨m, h', e, hListMap_abs A cols mod _ _ _ _ _ _ H e⟩
    obtain ⟨o, ho, hao⟩ := H.getSome ha
    cases hao with
    | raw v => exact close (rawListMap v) h (by simp only [hListMap, nb, if_false, ho])
    | original v n k => exact close (originalListMap v n k) h (by simp only [hListMap, nb, if_false, ho])
    | l2l v n k => exact close (l2lListMap v n k) h (by simp only [hListMap, nb, if_false, ho])
    | @sms s₀ s hr =>
      obtain ⟨m, s', e⟩ := hp s hr
      exact close m (h.set i (.sms s')) (by simp only [hListMap, nb, if_false, ho, e])
    | prefixed p c =>
      cases c with
      | str s => exact hp.elim
      | ref j =>
        cases u with
        | prefixed e u' =>
          rw [ha] at e; cases e
          obtain ⟨m, h', e, H'⟩ := down j (by simp [AObj.children]) _ u' (by simp [Tree.depth]) h H
          exact close (prefixListMap p m) h' (by simp only [hListMap, nb, if_false, ho, e])
        | _ e => rw [ha] at e; cases e
    | @replace c cs rs b hsim =>
      cases c with
      | str s => exact hp.elim
      | ref j =>
        cases u with
        | replace e u' =>
          rw [ha] at e; cases e
          have H1 : Abs A (h.set i (.replace (.ref j) (sortRepls rs b) true)) :=
            H.set ha (.replace hsim.afterSort)
          obtain ⟨m, h', e, H'⟩ := down j (by simp [AObj.children]) _ u' (by simp [Tree.depth]) _ H1
          exact close (replaceListMap m (sortRepls rs b)) h' (by simp only [hListMap, nb, if_false, ho, e])
        | _ e => rw [ha] at e; cases e
    | concat cs =>
      cases u with
      | @concat _ cs' ts e hl hk =>
        rw [ha] at e; cases e
        have key : ∃ ms h', hListMap cols mod (f + 1) h busy (.ref i) = .ok (concatMaps [] ms, h') := by
          simp only [hListMap, nb, if_false, ho]
          generalize hx : eachChild _ h cs = x
          have hc : ∃ as h', x = .ok (as, h') ∧ Abs A h' := by
            rw [← hx]
            refine eachChild_ok cs ?_ h H
            intro c hc h H
            cases c with
            | str s => exact ⟨_, _, rfl, H⟩
            | ref j =>
              obtain ⟨k, hk'⟩ := List.mem_iff_getElem?.1 hc
              have hlt := (List.getElem?_eq_some_iff.1 hk').1
              have ht : ts[k]? = some ts[k] := List.getElem?_eq_getElem (by omega)
              obtain ⟨m, h', e, H'⟩ := down j (by simpa [AObj.children] using hc) ts[k] (hk k _ _ hk' ht)
                (by have := Tree.depth_le_depths ht; simp [Tree.depth]; omega) h H
              dsimp only
              rw [e]
              exact ⟨_, h', rfl, H'⟩
          obtain ⟨ns, h', rfl, _⟩ := hc
          exact ⟨ns, h', rfl⟩
        obtain ⟨ms, h', e⟩ := key
        exact close _ h' e
      | _ e => rw [ha] at e; cases e

/-! ## Between histories and objects -/

theorem children_of_objOf {ops : List Op} {i : Nat} {op : Op} {a : AObj} (h : objOf ops i op = some a) :
    a.children = below ops i op := by
  cases op <;> simp [objOf] at h <;> subst h <;> rfl

theorem sound_iff {ops : List Op} {A : AHeap} (hA : stepAll [] ops = .ok A) {P : Op → Prop}
    {Q : AObj → Prop} (hPQ : ∀ i op a, op ∈ ops → objOf ops i op = some a → (P op ↔ Q a)) (i : Nat) :
    Sound ops P i ↔ ASound A Q i := by
  constructor
  · intro h
    induction h with
    | @intro i op hc hp _ ih =>
      have ho := object_of_created hA hc
      have hmem := List.mem_filter.1 (List.mem_of_getElem? hc)
      obtain ⟨a, ha⟩ := Option.isSome_iff_exists.1 (objOf_isSome hmem.2 ops i)
      refine .intro (ho.trans ha) ((hPQ i op a hmem.1 ha).1 hp) ?_
      rw [children_of_objOf ha]
      exact ih
  · intro h
    induction h with
    | @intro i a ha hq _ ih =>
      have D := stepAll_described hA i
      rw [ha] at D
      cases hc : (created ops)[i]? with
      | none => rw [hc] at D; cases D
      | some op =>
        rw [hc] at D
        have hmem := List.mem_filter.1 (List.mem_of_getElem? hc)
        refine .intro hc ((hPQ i op a hmem.1 D.symm).2 hq) ?_
        rw [← children_of_objOf D.symm]
        exact ih

/-- C33 for `source()` and `size()`: after any history that did not trap, they answer on exactly the
objects from which following references comes to an end. -/
theorem C33_source (ops : List Op) (h : Heap) (hrun : run ops = .ok h) (i : Nat) :
    (Sound ops (fun _ => True) i ↔ ∃ r, apiSource h i = .ok r) ∧
    (Sound ops (fun _ => True) i → ∃ r, apiSize h i = .ok r) := by
  obtain ⟨A, hA, H⟩ := run_abs hrun
  have V := stepAll_valid (A := []) (by intro i a h; simp at h) ops hA
  rw [sound_iff (Q := fun _ => True) hA (fun _ _ _ _ _ => Iff.rfl)]
  refine ⟨⟨?_, ?_⟩, ?_⟩
  · intro hs
    obtain ⟨t, u⟩ := unfolds_of_acc V hs.acc hs.lt
    obtain ⟨h', _, e⟩ := api_source H u
    exact ⟨_, e⟩
  · rintro ⟨⟨s, h'⟩, e⟩
    obtain ⟨t, u, _⟩ := (api_source_iff H i s).1 ⟨h', e⟩
    have hlt : i < A.length := by
      cases u with
      | _ e => exact (List.getElem?_eq_some_iff.1 e).1
    exact asound_of_acc V (acc_of_unfolds u i rfl) hlt
  · intro hs
    obtain ⟨t, u⟩ := unfolds_of_acc V hs.acc hs.lt
    obtain ⟨h', _, e⟩ := api_size H u
    exact ⟨_, e⟩

/-- C33, as far as it holds: every read answers, with any options and after any reads, if following
references comes to an end, no prefix or replacement is put over a plain string and the maps given to
`SourceMapSource`s can be read. `C33_not_general` shows that cycles and wrapped strings do trap. -/
theorem C33_reads_partial (ops : List Op) (h : Heap) (hrun : run ops = .ok h) (i : Nat)
    (hs : Sound ops (fun op => ¬ OverText op ∧ MapsReadable op) i) :
    (∃ r, apiSource h i = .ok r) ∧ (∃ r, apiSize h i = .ok r) ∧
    ∀ columns module_ file, ∃ r, apiSourceAndMap h i columns module_ file = .ok r := by
  obtain ⟨A, hA, H⟩ := run_abs hrun
  have V := stepAll_valid (A := []) (by intro i a h; simp at h) ops hA
  have hs' : ASound A (AObj.Fine Sms.Safe) i := by
    have : ∀ {i}, Sound ops (fun op => ¬ OverText op ∧ MapsReadable op) i → ASound A (AObj.Fine Sms.Safe) i := by
      intro i h
      induction h with
      | @intro i op hc hp _ ih =>
        have ho := object_of_created hA hc
        have hmem := List.mem_filter.1 (List.mem_of_getElem? hc)
        obtain ⟨a, ha⟩ := Option.isSome_iff_exists.1 (objOf_isSome hmem.2 ops i)
        refine .intro (ho.trans ha) ?_ (by rw [children_of_objOf ha]; exact ih)
        cases op with
        | newSms v vi n m o inner =>
          simp only [objOf, Option.some.injEq] at ha
          subst ha
          exact ⟨hp.2.1.safe, fun ih e => (hp.2.2 ih e).safe⟩
        | newPrefix p c =>
          simp only [objOf, Option.some.injEq] at ha
          subst ha
          cases c with
          | str s => exact hp.1 trivial
          | ref j => trivial
        | newReplace c =>
          simp only [objOf, Option.some.injEq] at ha
          subst ha
          cases c with
          | str s => exact hp.1 trivial
          | ref j => trivial
        | _ => simp [objOf] at ha; try (subst ha; trivial)
    exact this hs
  obtain ⟨t, u⟩ := unfolds_of_acc V hs'.acc hs'.lt
  obtain ⟨h1, _, e1⟩ := api_source H u
  obtain ⟨h2, _, e2⟩ := api_size H u
  refine ⟨⟨_, e1⟩, ⟨_, e2⟩, ?_⟩
  intro cols mod file
  have g : Going A (budget h) [] t.depth := by rw [budget, ← H.1]; exact Going.start A _
  unfold apiSourceAndMap
  cases cols with
  | true =>
    obtain ⟨n, h', e, _⟩ := hNode_answers true mod (hs'.mono fun _ => AObj.Fine.nodeSafe) t u (budget h) [] h g H
    obtain ⟨r, er⟩ := n.rendered file none
    rw [if_pos rfl, apiNode, e]
    dsimp only
    rw [er]
    exact ⟨_, rfl⟩
  | false =>
    obtain ⟨m, h', e, _⟩ := hListMap_answers false mod (hs'.mono fun _ => AObj.Fine.imp fun _ h => h.linesSafe.at mod) t u (budget h) [] h g H
    rw [if_neg (by decide), apiListMap, e]
    exact ⟨_, rfl⟩

theorem allM_inv {α β : Type _} {f : α → M β} : ∀ {as : List α} {bs : List β}, allM f as = .ok bs →
    ∀ a ∈ as, ∃ b, f a = .ok b
  | [], _, _, a, ha => by cases ha
  | x :: as, bs, h, a, ha => by
    rw [allM] at h
    cases hx : f x with
    | error e => rw [hx] at h; cases h
    | ok b =>
      rw [hx] at h
      cases hr : allM f as with
      | error e => simp only [Except.bind] at h; rw [hr] at h; cases h
      | ok bs' =>
        rcases List.mem_cons.1 ha with rfl | ha
        · exact ⟨b, hx⟩
        · exact allM_inv hr a ha

theorem seen_sound {A : AHeap} {Q : Sms → Prop} (ok : Tree → Prop) (hstr : ∀ s, ¬ ok (.str s))
    (hsms : ∀ s₀ s, Sms.Reads s₀ s → ok (.sms s) → Q s₀)
    (hpre : ∀ p t, ok (.prefixed p t) → ok t) (hrep : ∀ t cs, ok (.replace t cs) → ok t)
    (hcon : ∀ ts, ok (.concat ts) → ∀ t ∈ ts, (∃ s, t = .str s) ∨ ok t) {src : Src} {t : Tree}
    (h : Seen A src t) : ok t → ∀ i, src = .ref i → ASound A (AObj.Fine Q) i := by
  have leaf : ∀ i a, A[i]? = some a → a.Fine Q → a.children = [] → ASound A (AObj.Fine Q) i := by
    intro i a ha hw hc
    exact .intro ha hw (by rw [hc]; intro j hj; cases hj)
  induction h with
  | str s => intro h; exact absurd h (hstr s)
  | raw e => intro _ i h; cases h; exact leaf _ _ e trivial rfl
  | original e => intro _ i h; cases h; exact leaf _ _ e trivial rfl
  | l2l e => intro _ i h; cases h; exact leaf _ _ e trivial rfl
  | sms e hr => intro hok i h; cases h; exact leaf _ _ e (hsms _ _ hr hok) rfl
  | @prefixed k p c t e hs ih =>
    intro h i hi; cases hi
    have ht := hpre _ _ h
    cases c with
    | str s => cases hs; exact absurd ht (hstr s)
    | ref j =>
      refine .intro e trivial ?_
      intro j' hj
      simp only [AObj.children, List.mem_singleton] at hj
      cases hj
      exact ih ht j rfl
  | @replace k c cs t e hs ih =>
    intro h i hi; cases hi
    have ht := hrep _ _ h
    cases c with
    | str s => cases hs; exact absurd ht (hstr s)
    | ref j =>
      refine .intro e trivial ?_
      intro j' hj
      simp only [AObj.children, List.mem_singleton] at hj
      cases hj
      exact ih ht j rfl
  | @concat k cs ts e hl hk ih =>
    intro h i hi; cases hi
    refine .intro e trivial ?_
    intro j hj
    replace hj : Src.ref j ∈ cs := hj
    obtain ⟨q, hq⟩ := List.mem_iff_getElem?.1 hj
    have hlt := (List.getElem?_eq_some_iff.1 hq).1
    have ht : ts[q]? = some ts[q] := List.getElem?_eq_getElem (by omega)
    rcases hcon ts h ts[q] (List.mem_of_getElem? ht) with ⟨s, hs⟩ | hok
    · have := hk q _ _ hq ht
      rw [hs] at this
      cases this
    · exact ih q _ _ hq ht hok j rfl

theorem seen_node_sound {A : AHeap} {Q : Sms → Prop} {cols mod : Bool}
    (hsms : ∀ s₀ s, Sms.Reads s₀ s → (∃ r, s.node = .ok r) → Q s₀) {i : Nat} {t : Tree}
    (h : Seen A (.ref i) t) {n : SmNode} (ht : t.node cols mod = .ok n) :
    ASound A (AObj.Fine Q) i := by
  refine seen_sound (fun t => ∃ n, t.node cols mod = .ok n) ?_ ?_ ?_ ?_ ?_ h ⟨n, ht⟩ i rfl
  · rintro s ⟨n, h⟩; cases h
  · rintro s₀ s hr ⟨n, h⟩
    rw [Tree.node] at h
    cases hx : s.node with
    | error e => rw [hx] at h; cases h
    | ok q => exact hsms s₀ s hr ⟨q, hx⟩
  · rintro p t ⟨n, h⟩
    rw [Tree.node] at h
    cases hx : t.node cols mod with
    | error e => rw [hx] at h; cases h
    | ok n => exact ⟨n, rfl⟩
  · rintro t cs ⟨n, h⟩
    rw [Tree.node] at h
    cases hx : t.node cols mod with
    | error e => rw [hx] at h; cases h
    | ok n => exact ⟨n, rfl⟩
  · rintro ts ⟨n, h⟩ t ht
    rw [Tree.node, Tree.nodes_eq] at h
    cases hx : allM (Tree.itemNode cols mod) ts with
    | error e => rw [hx] at h; cases h
    | ok ns =>
      obtain ⟨b, hb⟩ := allM_inv hx t ht
      cases t with
      | str s => exact .inl ⟨s, rfl⟩
      | _ => exact .inr ⟨b, hb⟩

theorem seen_listMap_sound' {A : AHeap} {Q : Sms → Prop} {cols mod : Bool}
    (hsms : ∀ s₀ s, Sms.Reads s₀ s → (∃ r, s.listMap mod = .ok r) → Q s₀) {i : Nat} {t : Tree}
    (h : Seen A (.ref i) t) {m : Slm} (ht : t.listMap cols mod = .ok m) :
    ASound A (AObj.Fine Q) i := by
  refine seen_sound (fun t => ∃ n, t.listMap cols mod = .ok n) ?_ ?_ ?_ ?_ ?_ h ⟨m, ht⟩ i rfl
  · rintro s ⟨n, h⟩; cases h
  · rintro s₀ s hr ⟨n, h⟩
    rw [Tree.listMap] at h
    cases hx : s.listMap mod with
    | error e => rw [hx] at h; cases h
    | ok q => exact hsms s₀ s hr ⟨q, hx⟩
  · rintro p t ⟨n, h⟩
    rw [Tree.listMap] at h
    cases hx : t.listMap cols mod with
    | error e => rw [hx] at h; cases h
    | ok n => exact ⟨n, rfl⟩
  · rintro t cs ⟨n, h⟩
    rw [Tree.listMap] at h
    cases hx : t.listMap cols mod with
    | error e => rw [hx] at h; cases h
    | ok n => exact ⟨n, rfl⟩
  · rintro ts ⟨n, h⟩ t ht
    rw [Tree.listMap, Tree.listMaps_eq] at h
    cases hx : allM (Tree.itemMap cols mod) ts with
    | error e => rw [hx] at h; cases h
    | ok ns =>
      obtain ⟨b, hb⟩ := allM_inv hx t ht
      cases t with
      | str s => exact .inl ⟨s, rfl⟩
      | _ =>
        refine .inr ?_
        simp only [Tree.itemMap] at hb
        generalize hy : Tree.listMap _ _ _ = y at hb
        cases y with
        | error e => cases hb
        | ok m => exact ⟨m, rfl⟩

theorem seen_listMap_sound {A : AHeap} {cols mod : Bool} {i : Nat} {t : Tree}
    (h : Seen A (.ref i) t) {m : Slm} (ht : t.listMap cols mod = .ok m) :
    ASound A (AObj.Fine fun _ => True) i :=
  seen_listMap_sound' (fun _ _ _ _ => trivial) h ht

/-- C33, the other direction: whenever `sourceAndMap()` answers, following references comes to an end
and no prefix or replacement is put over a plain string; so all other objects trap. -/
theorem C33_map_only (ops : List Op) (h : Heap) (hrun : run ops = .ok h) (i : Nat)
    (columns module_ : Bool) (file : Option Int) (r : StringWithSourceMap × Heap)
    (e : apiSourceAndMap h i columns module_ file = .ok r) : Sound ops (fun op => ¬ OverText op) i := by
  obtain ⟨A, hA, H⟩ := run_abs hrun
  rw [sound_iff (Q := AObj.Fine fun _ => True) hA (by
    intro i op a _ ha
    cases op with
    | newPrefix p c =>
      simp only [objOf, Option.some.injEq] at ha; subst ha
      cases c <;> simp [OverText, AObj.Fine]
    | newReplace c =>
      simp only [objOf, Option.some.injEq] at ha; subst ha
      cases c <;> simp [OverText, AObj.Fine]
    | _ => simp [objOf] at ha; try (subst ha; simp [OverText, AObj.Fine]))]
  unfold apiSourceAndMap at e
  cases columns with
  | true =>
    rw [if_pos rfl] at e
    split at e
    · cases e
    · rename_i n h' e1
      obtain ⟨t, hs, ht⟩ := hNode_seen A true module_ _ _ _ _ _ _ H e1
      exact seen_node_sound (fun _ _ _ _ => trivial) hs ht
  | false =>
    rw [if_neg (by decide)] at e
    split at e
    · cases e
    · rename_i n h' e1
      obtain ⟨t, hs, ht⟩ := hListMap_seen A false module_ _ _ _ _ _ _ H e1
      exact seen_listMap_sound hs ht

/-! ## Exactly which map reads answer, if the maps given are well-formed -/

/-- A map that is well-formed by the format; array entries may be repeated. -/
def Spec.WellFormed (m : SmHolder) : Prop :=
  m.Given ∧
  (∀ d, m.data = some d → ∃ ps, points d.sources d.names d.mappings = some ps ∧ (∀ p ∈ ps, p.Small) ∧
    d.sources.length ≤ 4294967296 ∧ d.names.length ≤ 4294967296) ∧
  ∀ g, m.gen = some g → ∃ a r ps, Made a r g ps

/-- Every index used is below the number of different entries of its array; of no concern to a map given
as a generator. -/
def Spec.CountsOnce (m : SmHolder) : Prop :=
  m.gen = none → ∀ d, m.data = some d → ∀ gs, decode d.mappings = some gs → ∀ g ∈ gs,
    ∀ si ol oc ni, g.orig = some (si, ol, oc, ni) →
      si < d.sources.eraseDups.length ∧ ∀ n, ni = some n → n < d.names.eraseDups.length

/-- The maps given to a `SourceMapSource` are well-formed. -/
def Spec.MapsWellFormed : Op → Prop
  | .newSms _ _ _ m _ inner => WellFormed m ∧ ∀ ih, inner = some ih → WellFormed ih
  | _ => True

/-- The maps given to a `SourceMapSource` use small indices. -/
def Spec.MapsCountOnce : Op → Prop
  | .newSms _ _ _ m _ inner => CountsOnce m ∧ ∀ ih, inner = some ih → CountsOnce ih
  | _ => True

theorem dedup_filter : ∀ (n : Nat) (l seen : List Int), l.length ≤ n →
    dedup seen l = (l.filter fun a => !seen.contains a).eraseDups
  | _, [], _, _ => by simp [dedup]
  | 0, _ :: _, _, h => by simp at h
  | n + 1, a :: l, seen, h => by
    have hl : l.length ≤ n := by simpa using h
    rw [dedup]
    split
    · rename_i hm
      rw [List.filter_cons_of_neg (by simpa using hm)]
      exact dedup_filter n l seen hl
    · rename_i hm
      rw [List.filter_cons_of_pos (by simpa using hm), List.eraseDups_cons, List.filter_filter,
        dedup_filter n l (a :: seen) hl]
      congr 2
      apply List.filter_congr
      intro x _
      by_cases hx : x = a <;> simp [hx, bne]

theorem dedup_eraseDups (l : List Int) : dedup [] l = l.eraseDups := by
  rw [dedup_filter l.length l [] (Nat.le_refl _), List.filter_eq_self.2 (by simp)]

theorem at?_some_iff {l : List Int} {i : Int} (hi : 0 ≤ i) : (∃ a, at? l i = some a) ↔ i < l.length := by
  unfold at?
  rw [if_neg (by omega)]
  constructor
  · rintro ⟨a, h⟩
    have := (List.getElem?_eq_some_iff.1 h).1
    omega
  · intro h
    exact ⟨_, List.getElem?_eq_getElem (show i.toNat < l.length by omega)⟩

theorem at?_nonneg {l : List Int} {i a : Int} (h : at? l i = some a) : 0 ≤ i := by
  unfold at? at h
  split at h
  · cases h
  · omega

/-- Whether a segment that resolves with some tables does with others. -/
theorem resolve_others {S N S' N' : List Int} {g : Seg} {p : Point} (h : g.resolve S N = some p) :
    (∃ q, g.resolve S' N' = some q) ↔ ∀ si ol oc ni, g.orig = some (si, ol, oc, ni) →
      si < S'.length ∧ ∀ n, ni = some n → n < N'.length := by
  obtain ⟨l, c, o⟩ := g
  cases o with
  | none =>
    obtain ⟨c1, e1, rfl⟩ := resolve_none_iff.1 h
    exact ⟨fun _ _ _ _ _ e => (by cases e), fun _ => ⟨_, resolve_none_iff.2 ⟨c1, e1, rfl⟩⟩⟩
  | some o =>
    obtain ⟨si, ol, oc, ni⟩ := o
    obtain ⟨c1, l1, o1, a1, x1, e1, e2, e3, e4, e5, rfl⟩ := resolve_orig_iff.1 h
    constructor
    · rintro ⟨q, hq⟩ si' ol' oc' ni' e
      cases e
      obtain ⟨c2, l2, o2, a2, x2, _, _, _, d4, d5, rfl⟩ := resolve_orig_iff.1 hq
      refine ⟨(at?_some_iff (at?_nonneg d4)).1 ⟨_, d4⟩, ?_⟩
      rintro n rfl
      rcases d5 with ⟨d, _⟩ | ⟨i, y, d, dy, _⟩
      · cases d
      · cases d
        exact (at?_some_iff (at?_nonneg dy)).1 ⟨_, dy⟩
    · intro hh
      obtain ⟨h1, h2⟩ := hh si ol oc ni rfl
      obtain ⟨a2, ha2⟩ := (at?_some_iff (l := S') (at?_nonneg e4)).2 h1
      rcases e5 with ⟨d, dx⟩ | ⟨i, y, d, dy, dx⟩
      · exact ⟨_, resolve_orig_iff.2 ⟨c1, l1, o1, a2, none, e1, e2, e3, ha2, .inl ⟨d, rfl⟩, rfl⟩⟩
      · obtain ⟨y2, hy2⟩ := (at?_some_iff (l := N') (at?_nonneg dy)).2 (h2 i d)
        exact ⟨_, resolve_orig_iff.2 ⟨c1, l1, o1, a2, some y2, e1, e2, e3, ha2, .inr ⟨i, y2, d, hy2, rfl⟩, rfl⟩⟩

theorem resolveAll_mem {S N : List Int} : ∀ {gs : List Seg} {ps : List Point}, resolveAll S N gs = some ps →
    ∀ g ∈ gs, ∃ p, g.resolve S N = some p
  | g :: gs, ps, h, x, hx => by
    rw [resolveAll] at h
    split at h
    · rename_i p ps' hp hps
      rcases List.mem_cons.1 hx with rfl | hx
      · exact ⟨p, hp⟩
      · exact resolveAll_mem hps x hx
    · cases h

/-- A well-formed map is read exactly if its indices are below the numbers of different entries. -/
theorem Spec.WellFormed.reads {m : SmHolder} (h : WellFormed m) :
    (CountsOnce m → m.Safe) ∧ ((∃ r, m.getGen = .ok r) → CountsOnce m) := by
  obtain ⟨h1, h2, h3⟩ := h
  constructor
  · intro hc
    refine ⟨?_, ?_, ?_⟩
    · intro d hd
      obtain ⟨ps, hp, _⟩ := h2 d hd
      exact points_decode hp
    · intro g hg
      obtain ⟨a, r, ps, hm⟩ := h3 g hg
      exact ⟨hm.inv.1, hm.inv.2.1⟩
    · intro hn
      rcases h1 with h1 | h1
      · obtain ⟨d, hd⟩ := Option.isSome_iff_exists.1 h1
        obtain ⟨ps, hp, hsm, hs1, hn1⟩ := h2 d hd
        obtain ⟨gs, hgs⟩ := points_decode hp
        have hp' : resolveAll d.sources d.names gs = some ps := by
          unfold points at hp; rw [hgs] at hp; exact hp
        obtain ⟨ps2, e2⟩ := resolveAll_some (S := dedup [] d.sources) (N := dedup [] d.names) (gs := gs) (by
          intro g hg
          obtain ⟨p, hp⟩ := resolveAll_mem hp' g hg
          refine (resolve_others hp).2 ?_
          rw [dedup_eraseDups, dedup_eraseDups]
          exact hc hn d hd gs hgs g hg)
        obtain ⟨g, e, k1, k2, _⟩ := fromSourceMap_tables (cs := d.contents) (ss := d.sources) (ns := d.names)
          none none true rfl rfl (by unfold points; rw [hgs]; exact e2) (resolveAll_small hp' e2 hsm)
          (Nat.le_trans (dedup_length _ _) hs1) (Nat.le_trans (dedup_length _ _) hn1)
        exact ⟨d, hd, g, e, k1, k2⟩
      · rw [hn] at h1; cases h1
  · rintro ⟨r, e⟩ hn d hd gs hgs g hg
    obtain ⟨ps, hp, hsm, hs1, hn1⟩ := h2 d hd
    have hp' : resolveAll d.sources d.names gs = some ps := by
      unfold points at hp; rw [hgs] at hp; exact hp
    obtain ⟨qs, e1, e2⟩ := parse_segs hp hsm hs1 hn1
    rw [hgs] at e2
    have hgs := Option.some.inj e2
    unfold SmHolder.getGen at e
    rw [hn, hd] at e
    dsimp only at e
    split at e
    · cases e
    · rename_i g' e3
      unfold Generator.fromSourceMap parseMappings at e3
      rw [e1] at e3
      simp only [if_true] at e3
      rw [hgs, List.mem_map] at hg
      obtain ⟨q, hq, rfl⟩ := hg
      obtain ⟨m', hm'⟩ := addParsed_all e3 q ((sortBy_perm qs).mem_iff.2 hq)
      obtain ⟨p2, hp2⟩ := resolveParsed_seg hm'
      obtain ⟨p, hp⟩ := resolveAll_mem hp' q.seg (by rw [hgs]; exact List.mem_map.2 ⟨q, hq, rfl⟩)
      have := (resolve_others hp).1 ⟨p2, hp2⟩
      rwa [dedup_eraseDups, dedup_eraseDups] at this

/-- What reads for lines keep. -/
structure SmHolder.LineSafe (m : SmHolder) : Prop where
  data : ∀ d, m.data = some d → ∃ ss, decode d.mappings = some ss
  gen : m.data = none → ∃ g, m.gen = some g ∧ g.Ok ∧ g.mappings.Truthful

theorem Spec.WellFormed.lineSafe {m : SmHolder} (h : WellFormed m) : m.LineSafe := by
  obtain ⟨h1, h2, h3⟩ := h
  refine ⟨?_, ?_⟩
  · intro d hd
    obtain ⟨ps, hp, _⟩ := h2 d hd
    exact points_decode hp
  · intro hd
    rcases h1 with h1 | h1
    · rw [hd] at h1; cases h1
    · obtain ⟨g, hg⟩ := Option.isSome_iff_exists.1 h1
      obtain ⟨a, r, ps, hm⟩ := h3 g hg
      exact ⟨g, hg, hm.inv.1, hm.inv.2.1⟩

theorem SmHolder.LineSafe.getData {m : SmHolder} (h : m.LineSafe) :
    ∃ d m', m.getData = .ok (d, m') ∧ (∃ ss, decode d.mappings = some ss) ∧ m'.LineSafe ∧
      (m.data.isSome = true → m' = m) := by
  unfold SmHolder.getData
  cases hd : m.data with
  | some d => exact ⟨d, m, rfl, h.data d hd, h, fun _ => rfl⟩
  | none =>
    obtain ⟨g, hg, h1, h2⟩ := h.gen hd
    have hs : g.mappings.sort.list.Pairwise (fun a b => Mapping.le a b = true) := by
      rw [MappingList.sort_list h2]; exact sortBy_sorted _
    obtain ⟨sm, e, _, _, _, hp⟩ := Generator.toSourceMap_ok h1 hs
    rw [hg]
    dsimp only
    rw [e]
    have hdec := points_decode hp
    exact ⟨_, _, rfl, hdec, ⟨fun d e => by cases e; exact hdec, fun e => by cases e⟩, fun e => by cases e⟩

theorem Sms.listMap_lineSafe {s : Sms} (h : s.map.LineSafe) (b : Bool) :
    ∃ m s', s.listMap b = .ok (m, s') ∧ s'.map.LineSafe ∧ s'.inner = s.inner ∧
      (s.map.data.isSome = true → s'.map = s.map) := by
  unfold Sms.listMap
  cases b with
  | false => exact ⟨_, _, rfl, h, rfl, fun _ => rfl⟩
  | true =>
    simp only [Bool.not_true, Bool.false_eq_true, if_false]
    obtain ⟨d, m', e, ⟨ss, hdec⟩, hm, hk⟩ := h.getData
    rw [e]
    dsimp only
    obtain ⟨m, e2⟩ := (C13_text s.value d.sources d.contents d.mappings).2 ss hdec
    rw [e2]
    exact ⟨m, _, rfl, hm, rfl, hk⟩

/-- Neither map of a `SourceMapSource` uses an index too large. -/
def Sms.CountsOnce (s : Sms) : Prop := Spec.CountsOnce s.map ∧ ∀ ih, s.inner = some ih → Spec.CountsOnce ih

theorem Sms.node_getGen {s : Sms} {r : SmNode × Sms} (e : s.node = .ok r) :
    (∃ q, s.map.getGen = .ok q) ∧ ∀ ih, s.inner = some ih → ∃ q, ih.getGen = .ok q := by
  unfold Sms.node at e
  split at e
  · cases e
  · rename_i g map hg
    refine ⟨⟨_, hg⟩, ?_⟩
    intro ih hi
    rw [hi] at e
    dsimp only at e
    cases hg2 : ih.getGen with
    | error x => rw [hg2] at e; cases e
    | ok q => exact ⟨q, rfl⟩

/-- Without the condition the state after any reads is the one given, up to what `getData` keeps. -/
theorem Sms.reads_uncounted {s₀ s : Sms} (hm : WellFormed s₀.map)
    (hi : ∀ ih, s₀.inner = some ih → WellFormed ih) (hc : ¬ s₀.CountsOnce) (hr : Sms.Reads s₀ s) :
    s.map.LineSafe ∧ s.inner = s₀.inner ∧ (s₀.map.data.isSome = true → s.map = s₀.map) := by
  induction hr with
  | refl => exact ⟨hm.lineSafe, rfl, fun _ => rfl⟩
  | @node s s' n hr e ih =>
    exfalso
    obtain ⟨_, h2, h3⟩ := ih
    obtain ⟨k1, k2⟩ := Sms.node_getGen e
    refine hc ⟨?_, ?_⟩
    · intro hn d hd
      have hs := h3 (by rw [hd]; rfl)
      rw [hs] at k1
      exact hm.reads.2 k1 hn d hd
    · intro ih hih
      exact (hi ih hih).reads.2 (k2 ih (by rw [h2]; exact hih))
  | @listMap s s' b m hr e ih =>
    obtain ⟨h1, h2, h3⟩ := ih
    obtain ⟨m', s'', e', k1, k2, k3⟩ := Sms.listMap_lineSafe h1 b
    rw [e] at e'; cases e'
    refine ⟨k1, k2.trans h2, ?_⟩
    intro hd
    have := h3 hd
    rw [← this, k3 (by rw [this]; exact hd)]

theorem Sms.wellFormed_node {s₀ : Sms} (hm : WellFormed s₀.map)
    (hi : ∀ ih, s₀.inner = some ih → WellFormed ih) :
    (s₀.CountsOnce → s₀.NodeSafe) ∧ ∀ s, Sms.Reads s₀ s → (∃ r, s.node = .ok r) → s₀.CountsOnce := by
  constructor
  · intro hc s hr
    have hs : s₀.Safe := ⟨hm.reads.1 hc.1, fun ih e => (hi ih e).reads.1 (hc.2 ih e)⟩
    obtain ⟨n, s', e, _⟩ := (hs.reads hr).node
    exact ⟨n, s', e⟩
  · rintro s hr ⟨⟨n, s'⟩, e⟩
    refine Classical.byContradiction fun hc => ?_
    obtain ⟨_, h2, h3⟩ := Sms.reads_uncounted hm hi hc hr
    obtain ⟨k1, k2⟩ := Sms.node_getGen e
    refine hc ⟨?_, ?_⟩
    · intro hn d hd
      have hs := h3 (by rw [hd]; rfl)
      rw [hs] at k1
      exact hm.reads.2 k1 hn d hd
    · intro ih hih
      exact (hi ih hih).reads.2 (k2 ih (by rw [h2]; exact hih))

theorem Sms.wellFormed_lines {s₀ : Sms} (hm : WellFormed s₀.map)
    (hi : ∀ ih, s₀.inner = some ih → WellFormed ih) : s₀.LinesSafe := by
  by_cases hc : s₀.CountsOnce
  · have hs : s₀.Safe := ⟨hm.reads.1 hc.1, fun ih e => (hi ih e).reads.1 (hc.2 ih e)⟩
    exact hs.linesSafe
  · intro s hr b
    obtain ⟨h1, _⟩ := Sms.reads_uncounted hm hi hc hr
    obtain ⟨m, s', e, _⟩ := Sms.listMap_lineSafe h1 b
    exact ⟨m, s', e⟩

/-- C33 for maps with columns, exactly: if the maps given to `SourceMapSource`s are well-formed, a read
answers if and only if following references comes to an end, no prefix or replacement is put over a plain
string, and no map uses an index that its array without repetitions does not have. -/
theorem C33_columns_exact (ops : List Op) (h : Heap) (hrun : run ops = .ok h)
    (hw : ∀ op ∈ ops, MapsWellFormed op) (i : Nat) (module_ : Bool) (file : Option Int) :
    (∃ r, apiSourceAndMap h i true module_ file = .ok r) ↔
      Sound ops (fun op => ¬ OverText op ∧ MapsCountOnce op) i := by
  obtain ⟨A, hA, H⟩ := run_abs hrun
  have V := stepAll_valid (A := []) (by intro i a h; simp at h) ops hA
  -- objects of well-formed histories
  have key : ∀ {Q : Sms → Prop}, (∀ s₀, WellFormed s₀.map → (∀ ih, s₀.inner = some ih → WellFormed ih) →
      (s₀.CountsOnce ↔ Q s₀)) →
      (Sound ops (fun op => ¬ OverText op ∧ MapsCountOnce op) i ↔ ASound A (AObj.Fine Q) i) := by
    intro Q hQ
    refine sound_iff hA (fun i op a hop ha => ?_) i
    cases op with
    | newPrefix p c =>
      simp only [objOf, Option.some.injEq] at ha; subst ha
      cases c <;> simp [OverText, AObj.Fine, MapsCountOnce]
    | newReplace c =>
      simp only [objOf, Option.some.injEq] at ha; subst ha
      cases c <;> simp [OverText, AObj.Fine, MapsCountOnce]
    | newSms v vi n m o inner =>
      simp only [objOf, Option.some.injEq] at ha; subst ha
      have := hw _ hop
      refine Iff.trans ?_ (hQ _ this.1 this.2)
      exact ⟨fun h => h.2, fun h => ⟨id, h⟩⟩
    | _ => simp [objOf] at ha; try (subst ha; simp [OverText, AObj.Fine, MapsCountOnce])
  unfold apiSourceAndMap
  rw [if_pos rfl]
  constructor
  · rintro ⟨r, e⟩
    split at e
    · cases e
    · rename_i n h' e1
      obtain ⟨t, hs, ht⟩ := hNode_seen A true module_ _ _ _ _ _ _ H e1
      refine (key (Q := fun s₀ => (WellFormed s₀.map ∧ ∀ ih, s₀.inner = some ih → WellFormed ih) →
        s₀.CountsOnce) ?_).2 (seen_node_sound ?_ hs ht)
      · intro s₀ h1 h2
        exact ⟨fun h _ => h, fun h => h ⟨h1, h2⟩⟩
      · intro s₀ s hr hn hwf
        exact (Sms.wellFormed_node hwf.1 hwf.2).2 s hr hn
  · intro hs
    have hs' : ASound A (AObj.Fine Sms.NodeSafe) i := by
      refine (key ?_).1 hs
      intro s₀ h1 h2
      refine ⟨(Sms.wellFormed_node h1 h2).1, ?_⟩
      intro hn
      obtain ⟨n, s', e⟩ := hn s₀ .refl
      exact (Sms.wellFormed_node h1 h2).2 s₀ .refl ⟨_, e⟩
    obtain ⟨t, u⟩ := unfolds_of_acc V hs'.acc hs'.lt
    have g : Going A (budget h) [] t.depth := by rw [budget, ← H.1]; exact Going.start A _
    obtain ⟨n, h', e, _⟩ := hNode_answers true module_ hs' t u (budget h) [] h g H
    obtain ⟨r, er⟩ := n.rendered file none
    rw [apiNode, e]
    dsimp only
    rw [er]
    exact ⟨_, rfl⟩

/-- C33 for maps without columns, exactly: with well-formed maps a read answers if and only if following
references comes to an end and no prefix or replacement is put over a plain string. -/
theorem C33_lines_exact (ops : List Op) (h : Heap) (hrun : run ops = .ok h)
    (hw : ∀ op ∈ ops, MapsWellFormed op) (i : Nat) (module_ : Bool) (file : Option Int) :
    (∃ r, apiSourceAndMap h i false module_ file = .ok r) ↔ Sound ops (fun op => ¬ OverText op) i := by
  constructor
  · rintro ⟨r, e⟩
    exact C33_map_only ops h hrun i false module_ file r e
  · intro hs
    obtain ⟨A, hA, H⟩ := run_abs hrun
    have V := stepAll_valid (A := []) (by intro i a h; simp at h) ops hA
    have hs' : ASound A (AObj.Fine Sms.LinesSafe) i := by
      refine (sound_iff hA (fun i op a hop ha => ?_) i).1 hs
      cases op with
      | newPrefix p c =>
        simp only [objOf, Option.some.injEq] at ha; subst ha
        cases c <;> simp [OverText, AObj.Fine]
      | newReplace c =>
        simp only [objOf, Option.some.injEq] at ha; subst ha
        cases c <;> simp [OverText, AObj.Fine]
      | newSms v vi n m o inner =>
        simp only [objOf, Option.some.injEq] at ha; subst ha
        have := hw _ hop
        exact ⟨fun _ => Sms.wellFormed_lines this.1 this.2, fun _ => id⟩
      | _ => simp [objOf] at ha; try (subst ha; simp [OverText, AObj.Fine])
    obtain ⟨t, u⟩ := unfolds_of_acc V hs'.acc hs'.lt
    have g : Going A (budget h) [] t.depth := by rw [budget, ← H.1]; exact Going.start A _
    obtain ⟨m, h', e, _⟩ := hListMap_answers false module_ (hs'.mono fun _ => AObj.Fine.imp fun _ h => h.at module_) t u (budget h) [] h g H
    unfold apiSourceAndMap
    rw [if_neg (by decide), apiListMap, e]
    exact ⟨_, rfl⟩

/-- `source()` of object `i` after a history: the error, if it traps. -/
def trapOfSource (ops : List Op) (i : Nat) : Option Panic :=
  match run ops with
  | .error _ => none
  | .ok h => match apiSource h i with
    | .error e => some e
    | .ok _ => none

/-- `sourceAndMap()` of object `i` after a history: the error, if it traps. -/
def trapOfMap (ops : List Op) (i : Nat) (columns : Bool) : Option Panic :=
  match run ops with
  | .error _ => none
  | .ok h => match apiSourceAndMap h i columns true none with
    | .error e => some e
    | .ok _ => none

/-- Not every object that can be built answers:
a concatenation that contains itself through a prefix traps in `borrow()`
(`src/concat_source.rs:28-33`, `src/wasm_api/prefix_source.rs`);
`map()` of a prefix or replacement over a plain string reaches `unreachable!()` (`src/source.rs:66,80`),
although `source()` answers; a well-formed map whose sources repeat a name traps when it is read,
because indices are looked up in the array without repetitions
(`src/source_map/source_map_generator.rs: from_source_map`). -/
theorem C33_not_general :
    trapOfSource [.newConcat, .newPrefix "p".toList (.ref 0), .add 0 (.ref 1)] 0 = some .borrow ∧
    trapOfMap [.newPrefix "p".toList (.str "x".toList)] 0 true = some .unreachable ∧
    trapOfMap [.newPrefix "p".toList (.str "x".toList)] 0 false = some .unreachable ∧
    trapOfSource [.newPrefix "p".toList (.str "x".toList)] 0 = none ∧
    trapOfMap [.newReplace (.str "x".toList)] 0 true = some .unreachable ∧
    (points [5, 5, 6] [] "AEAA".toList).isSome = true ∧
    (trapOfMap [.newSms "x".toList 1 2 ⟨some ⟨[5, 5, 6], [], [], "AEAA".toList⟩, none⟩ none none] 0
      true).isSome = true := by
  decide +kernel

/-! Non-trivial case: sharing, all kinds, a map and an inner map. -/

def C33_map : SmHolder := ⟨some ⟨[5, 6], [7], [8], "AAAA,CACAA;ACAA".toList⟩, none⟩

def C33_history : List Op :=
  [.newRaw "r\n".toList, .newConcat, .newSms "ab\nc".toList 1 5 C33_map (some 3) (some C33_map),
   .newPrefix "> ".toList (.ref 2), .add 1 (.ref 3), .newReplace (.ref 1), .add 1 (.ref 3),
   .replace 4 0 1 "X".toList 0 0, .add 1 (.str "s".toList), .add 1 (.ref 0),
   .newOriginal "o;p".toList 9 10, .add 1 (.ref 5)]

theorem C33_map_readable : ReadableMap C33_map := by
  refine ⟨.inl rfl, ?_, fun g h => by cases h⟩
  intro d hd
  cases hd
  have hp : points [5, 6] [8] "AAAA,CACAA;ACAA".toList = some
      [⟨1, 0, some ⟨5, 1, 0, none⟩⟩, ⟨1, 1, some ⟨5, 2, 0, some 8⟩⟩, ⟨2, 0, some ⟨6, 2, 0, none⟩⟩] := by
    decide +kernel
  refine ⟨_, hp, ?_, by decide, by decide⟩
  intro p h
  simp only [List.mem_cons, List.not_mem_nil, or_false] at h
  rcases h with rfl | rfl | rfl <;> simp [Point.Small]

example : (run C33_history).toOption.isSome = true := by decide +kernel

example : Sound C33_history (fun op => ¬ OverText op ∧ MapsReadable op) 4 := by
  have s0 : Sound C33_history (fun op => ¬ OverText op ∧ MapsReadable op) 0 :=
    .intro (op := .newRaw "r\n".toList) rfl ⟨id, trivial⟩ (fun j h => by cases h)
  have s2 : Sound C33_history (fun op => ¬ OverText op ∧ MapsReadable op) 2 :=
    .intro (op := .newSms "ab\nc".toList 1 5 C33_map (some 3) (some C33_map)) rfl
      ⟨id, C33_map_readable, fun ih e => by cases e; exact C33_map_readable⟩ (fun j h => by cases h)
  have s3 : Sound C33_history (fun op => ¬ OverText op ∧ MapsReadable op) 3 :=
    .intro (op := .newPrefix "> ".toList (.ref 2)) rfl ⟨id, trivial⟩
      (fun j h => by cases List.mem_singleton.1 h; exact s2)
  have s5 : Sound C33_history (fun op => ¬ OverText op ∧ MapsReadable op) 5 :=
    .intro (op := .newOriginal "o;p".toList 9 10) rfl ⟨id, trivial⟩ (fun j h => by cases h)
  have s1 : Sound C33_history (fun op => ¬ OverText op ∧ MapsReadable op) 1 := by
    refine .intro (op := .newConcat) rfl ⟨id, trivial⟩ (fun j h => ?_)
    have : items C33_history 1 = [.ref 3, .ref 3, .str "s".toList, .ref 0, .ref 5] := by decide
    simp only [below, this, List.mem_cons, Src.ref.injEq, List.not_mem_nil, or_false] at h
    rcases h with rfl | rfl | h | rfl | rfl
    · exact s3
    · exact s3
    · cases h
    · exact s0
    · exact s5
  exact .intro (op := .newReplace (.ref 1)) rfl ⟨id, trivial⟩
    (fun j h => by cases List.mem_singleton.1 h; exact s1)

/-! Repeated entries: the map of the first object uses the third of two different ones, that of the second
object an entry behind a repetition that is still counted. -/

def C33_repeats : List Op :=
  [.newSms "x".toList 1 2 ⟨some ⟨[5, 5, 6], [], [], "AEAA".toList⟩, none⟩ none none,
   .newSms "x".toList 1 2 ⟨some ⟨[5, 5, 6], [], [], "ACAA".toList⟩, none⟩ none none,
   .newConcat, .add 2 (.ref 1), .newConcat, .add 3 (.ref 0), .add 3 (.ref 1)]

theorem C33_repeats_wellFormed : ∀ op ∈ C33_repeats, MapsWellFormed op := by
  have h1 : points [5, 5, 6] [] "AEAA".toList = some [⟨1, 0, some ⟨6, 1, 0, none⟩⟩] := by decide +kernel
  have h2 : points [5, 5, 6] [] "ACAA".toList = some [⟨1, 0, some ⟨5, 1, 0, none⟩⟩] := by decide +kernel
  intro op hop
  simp only [C33_repeats, List.mem_cons, List.not_mem_nil, or_false] at hop
  rcases hop with rfl | rfl | rfl | rfl | rfl | rfl | rfl
  · refine ⟨⟨.inl rfl, fun d hd => ?_, fun g h => by cases h⟩, fun ih h => by cases h⟩
    cases hd
    refine ⟨_, h1, ?_, by decide, by decide⟩
    intro p hp; simp only [List.mem_singleton] at hp; subst hp; simp [Point.Small]
  · refine ⟨⟨.inl rfl, fun d hd => ?_, fun g h => by cases h⟩, fun ih h => by cases h⟩
    cases hd
    refine ⟨_, h2, ?_, by decide, by decide⟩
    intro p hp; simp only [List.mem_singleton] at hp; subst hp; simp [Point.Small]
  all_goals trivial

example : Sound C33_repeats (fun op => ¬ OverText op ∧ MapsCountOnce op) 2 ∧
    ¬ Sound C33_repeats (fun op => ¬ OverText op ∧ MapsCountOnce op) 3 ∧
    Sound C33_repeats (fun op => ¬ OverText op) 3 := by
  have d1 : decode "AEAA".toList = some [⟨1, 0, some (2, 0, 0, none)⟩] := by decide +kernel
  have d2 : decode "ACAA".toList = some [⟨1, 0, some (1, 0, 0, none)⟩] := by decide +kernel
  have i2 : items C33_repeats 2 = [.ref 1] := by decide
  have i3 : items C33_repeats 3 = [.ref 0, .ref 1] := by decide
  refine ⟨.intro (op := .newConcat) rfl ⟨id, trivial⟩ ?_, ?_, .intro (op := .newConcat) rfl id ?_⟩
  · intro j hj
    simp only [below, i2, List.mem_singleton, Src.ref.injEq] at hj
    subst hj
    refine .intro rfl ⟨id, ?_, fun ih h => by cases h⟩ (fun j hj => by cases hj)
    rintro _ d ⟨⟩ gs hgs g hg si ol oc ni e
    rw [d2] at hgs; cases hgs
    simp only [List.mem_singleton] at hg; subst hg; cases e
    exact ⟨by decide +kernel, fun n h => by cases h⟩
  · intro h
    cases h with
    | intro h0 _ hb =>
      cases h0
      have := hb 0 (by simp [below, i3])
      cases this with
      | intro h0 hp _ =>
        cases h0
        have := (hp.2.1 rfl _ rfl _ d1 _ (List.mem_singleton.2 rfl) _ _ _ _ rfl).1
        exact absurd this (by decide +kernel)
  · intro j hj
    simp only [below, i3, List.mem_cons, List.not_mem_nil, or_false, Src.ref.injEq] at hj
    rcases hj with rfl | rfl
    · exact .intro rfl id (fun j hj => by cases hj)
    · exact .intro rfl id (fun j hj => by cases hj)

example : (trapOfMap C33_repeats 2 true).isNone = true ∧ trapOfMap C33_repeats 3 true = some .index ∧
    trapOfMap C33_repeats 3 false = none ∧ (run C33_repeats).toOption.isSome = true := by decide +kernel

end WS
