import Verif.Props.C81
/-! # C33 Which map reads answer, whatever maps are given -/

namespace WS
open Spec

/-! ## With columns -/

/-- A map is opened for columns if it is a generator, or data that can be read. -/
def Spec.Opens (m : SmHolder) : Prop :=
  m.gen = none → ∃ d, m.data = some d ∧ ColumnsRead d.sources d.names d.mappings

/-- The maps given to a `SourceMapSource` can be opened for columns. -/
def Spec.MapsOpen : Op → Prop
  | .newSms _ _ _ m _ inner => Opens m ∧ ∀ ih, inner = some ih → Opens ih
  | _ => True

theorem opens_iff (m : SmHolder) : (∃ q, m.getGen = .ok q) ↔ Opens m := by
  unfold SmHolder.getGen Opens
  cases hg : m.gen with
  | some g => exact ⟨(fun _ e => by cases e), fun _ => ⟨_, rfl⟩⟩
  | none =>
    cases hd : m.data with
    | none => exact ⟨(fun ⟨q, e⟩ => by cases e), (fun h => by obtain ⟨d, e, _⟩ := h rfl; cases e)⟩
    | some d =>
      dsimp only
      constructor
      · rintro ⟨q, e⟩ _
        refine ⟨d, rfl, (C81_reads d.sources d.contents d.names d.mappings none none).1 ?_⟩
        split at e
        · cases e
        · rename_i g e'
          exact ⟨g, e'⟩
      · intro h
        obtain ⟨d', e, h⟩ := h rfl
        cases e
        obtain ⟨g, e⟩ := (C81_reads d.sources d.contents d.names d.mappings none none).2 h
        rw [e]
        exact ⟨_, rfl⟩

/-- Both maps can be opened. -/
def Sms.Opens (s : Sms) : Prop := Spec.Opens s.map ∧ ∀ ih, s.inner = some ih → Spec.Opens ih

theorem Sms.node_iff (s : Sms) : (∃ r, s.node = .ok r) ↔ s.Opens := by
  constructor
  · rintro ⟨r, e⟩
    obtain ⟨h1, h2⟩ := Sms.node_getGen e
    exact ⟨(opens_iff _).1 h1, fun ih hi => (opens_iff _).1 (h2 ih hi)⟩
  · rintro ⟨h1, h2⟩
    obtain ⟨⟨g, map⟩, e1⟩ := (opens_iff _).2 h1
    have text := fun g => fromString_text s.value g
    unfold Sms.node
    rw [e1]
    dsimp only
    cases hi : s.inner with
    | none =>
      obtain ⟨n, e, _⟩ := text g
      dsimp only
      rw [e]
      exact ⟨_, rfl⟩
    | some ih =>
      obtain ⟨⟨ig, ih'⟩, e2⟩ := (opens_iff _).2 (h2 ih hi)
      dsimp only
      rw [e2]
      dsimp only
      generalize (if s.original.isSome = true then g.setSourceContent s.name s.original else g) = g0
      have happ : ∃ q, (if s.innerApplied = true then (.ok (g0, ig) : M _) else g0.applySourceMap ig (some s.name)) =
          .ok q := by
        split
        · exact ⟨_, rfl⟩
        · unfold Generator.applySourceMap
          exact ⟨_, rfl⟩
      obtain ⟨⟨g2, ig2⟩, e3⟩ := happ
      rw [e3]
      dsimp only
      obtain ⟨n, e4, _⟩ := text g2
      rw [e4]
      exact ⟨_, rfl⟩

theorem opens_of_gen {m : SmHolder} {g : Generator} (h : m.gen = some g) : Spec.Opens m := by
  intro e
  rw [h] at e
  cases e

theorem getData_opens {m m' : SmHolder} {d : SmData} (e : m.getData = .ok (d, m')) : Spec.Opens m' ↔ Spec.Opens m := by
  unfold SmHolder.getData at e
  split at e
  · cases e; rfl
  · split at e
    · cases e
    · rename_i g hg
      split at e
      · cases e
      · cases e
        exact ⟨fun _ => opens_of_gen hg, fun _ => opens_of_gen rfl⟩

/-- Reads do not change what can be opened. -/
theorem Sms.Reads.opens {s₀ s : Sms} (hr : Sms.Reads s₀ s) : s.Opens ↔ s₀.Opens := by
  induction hr with
  | refl => rfl
  | @node s s' n _ e ih =>
    have h0 : s.Opens := (Sms.node_iff s).1 ⟨_, e⟩
    refine ⟨fun _ => ih.1 h0, fun _ => ?_⟩
    unfold Sms.node at e
    split at e
    · cases e
    · rename_i g map hg
      have hm := (getGen_map hg).1
      split at e
      · rename_i hn
        split at e
        · cases e
        · cases e
          exact ⟨opens_of_gen hm, fun ih hi => by rw [hn] at hi; cases hi⟩
      · split at e
        · cases e
        · dsimp only at e
          split at e
          · cases e
          · split at e
            · cases e
            · cases e
              exact ⟨opens_of_gen rfl, fun ih hi => by cases hi; exact opens_of_gen rfl⟩
  | @listMap s s' b m _ e ih =>
    rw [← ih]
    unfold Sms.listMap at e
    split at e
    · cases e; rfl
    · split at e
      · cases e
      · rename_i d map hd
        split at e
        · cases e
        · cases e
          unfold Sms.Opens
          dsimp only
          rw [getData_opens hd]

/-- C33 for maps with columns, exactly, whatever maps are given: a read answers if and only if following references comes
to an end, no prefix or replacement is put over a plain string, and every map below can be opened. -/
theorem C33_columns (ops : List Op) (h : Heap) (hrun : run ops = .ok h) (i : Nat) (module_ : Bool) (file : Option Int) :
    (∃ r, apiSourceAndMap h i true module_ file = .ok r) ↔ Sound ops (fun op => ¬ OverText op ∧ MapsOpen op) i := by
  obtain ⟨A, hA, H⟩ := run_abs hrun
  have V := stepAll_valid (A := []) (by intro i a h; simp at h) ops hA
  have key : Sound ops (fun op => ¬ OverText op ∧ MapsOpen op) i ↔ ASound A (AObj.Fine Sms.Opens) i := by
    refine sound_iff hA (fun i op a hop ha => ?_) i
    cases op with
    | newPrefix p c =>
      simp only [objOf, Option.some.injEq] at ha; subst ha
      cases c <;> simp [OverText, AObj.Fine, MapsOpen]
    | newReplace c =>
      simp only [objOf, Option.some.injEq] at ha; subst ha
      cases c <;> simp [OverText, AObj.Fine, MapsOpen]
    | newSms v vi n m o inner =>
      simp only [objOf, Option.some.injEq] at ha; subst ha
      exact ⟨fun h => h.2, fun h => ⟨id, h⟩⟩
    | _ => simp [objOf] at ha; try (subst ha; simp [OverText, AObj.Fine, MapsOpen])
  rw [key]
  unfold apiSourceAndMap
  rw [if_pos rfl]
  constructor
  · rintro ⟨r, e⟩
    split at e
    · cases e
    · rename_i n h' e1
      obtain ⟨t, hs, ht⟩ := hNode_seen A true module_ _ _ _ _ _ _ H e1
      exact seen_node_sound (fun s₀ s hr hn => hr.opens.1 ((Sms.node_iff s).1 hn)) hs ht
  · intro hs
    have hs' : ASound A (AObj.Fine Sms.NodeSafe) i := hs.mono fun _ => AObj.Fine.imp fun s₀ ho s hr => by
      obtain ⟨⟨n, s'⟩, e⟩ := (Sms.node_iff s).2 (hr.opens.2 ho)
      exact ⟨n, s', e⟩
    obtain ⟨t, u⟩ := unfolds_of_acc V hs'.acc hs'.lt
    have g : Going A (budget h) [] t.depth := by rw [budget, ← H.1]; exact Going.start A _
    obtain ⟨n, h', e, _⟩ := hNode_answers true module_ hs' t u (budget h) [] h g H
    obtain ⟨r, er⟩ := n.rendered file none
    rw [apiNode, e]
    dsimp only
    rw [er]
    exact ⟨_, rfl⟩

/-! ## Without columns -/

/-- Generators given were made by calls of the API. -/
def Spec.GensMade (m : SmHolder) : Prop := ∀ g, m.gen = some g → ∃ a r ps, Made a r g ps

/-- The maps given to a `SourceMapSource`: the outer one is there, and generators were made by calls. -/
def Spec.MapsMade : Op → Prop
  | .newSms _ _ _ m _ inner => m.Given ∧ GensMade m ∧ ∀ ih, inner = some ih → GensMade ih
  | _ => True

/-- The outer map, if it was given as data, can be read for lines. -/
def Spec.MapsLined : Op → Prop
  | .newSms v _ _ m _ _ => ∀ d, m.data = some d → ∃ ls n, IsLines '\n' v ls ∧ Numbered ls.length d.mappings n
  | _ => True

theorem addParsed_each {S N : List Int} : ∀ (qs : List Parsed), (∀ q ∈ qs, ∃ m, resolveParsed S N q = .ok m) →
    ∃ ms : List Mapping, qs.map (resolveParsed S N) = ms.map (fun m => .ok m)
  | [], _ => ⟨[], rfl⟩
  | q :: qs, h => by
    obtain ⟨ms, hms⟩ := addParsed_each qs (fun x hx => h x (by simp [hx]))
    obtain ⟨m, hm⟩ := h q (by simp)
    exact ⟨m :: ms, by simp [hm, hms]⟩

theorem resolveParsed_in32 {S N : List Int} {q : Parsed} {m : Mapping} (h : resolveParsed S N q = .ok m)
    (hq : q.seg.In32) : m.Valid := by
  obtain ⟨l, c, o⟩ := q
  unfold resolveParsed at h
  split at h
  · cases h; exact ⟨by simp, rfl⟩
  · split at h
    · cases h
    · split at h
      · cases h
      · rename_i e _ _ _ _ _ _
        cases h
        replace e : o = _ := e
        subst e
        have := (hq.2 _ _ _ _ rfl).2.1
        unfold In32 at this
        dsimp only at this
        exact ⟨by simp, by simp; omega⟩

/-- Reading keeps a generator in order. -/
theorem fromSourceMap_good {ss cs ns : List Int} {s : Str} {f : Option Int} {r : Option Str} {cd : Bool} {g : Generator}
    (h : Generator.fromSourceMap ss cs s ns f r cd = .ok g) : g.Ok ∧ g.mappings.Truthful := by
  unfold Generator.fromSourceMap parseMappings at h
  dsimp only at h
  cases hp : parseGo s.length {} s with
  | none => rw [hp] at h; cases h
  | some qs =>
    rw [hp] at h
    dsimp only at h
    obtain ⟨t, _, _, h3⟩ := (parse_iff s qs).1 hp
    have hall := addParsed_all h
    obtain ⟨ms, hms⟩ := addParsed_each _ hall
    obtain ⟨r1, r2, r3, r4, r5, r6⟩ := registerSources_fields cd ss cs (Generator.new f r true)
    obtain ⟨g', k0, k1, k2, _⟩ := addParsed_ok _ ms (registerSources cd (Generator.new f r true) ss cs) hms (by
        intro m hm
        have : (Except.ok m : M Mapping) ∈ ms.map (fun m => .ok m) :=
          List.mem_map_of_mem (f := fun m => (Except.ok m : M Mapping)) hm
        rw [← hms] at this
        obtain ⟨q, h1, h2⟩ := List.mem_map.1 this
        exact resolveParsed_in32 h2 (h3 _ (List.mem_map_of_mem ((sortBy_perm qs).mem_iff.1 h1))))
      (r6 (Generator.new_ok _ _ _)) (by rw [r2]; exact fun _ => List.Pairwise.nil) (by rw [r2]; rfl)
    rw [h] at k0
    cases k0
    exact ⟨k1, k2⟩

/-- A generator kept is in order. -/
def SmHolder.GenGood (m : SmHolder) : Prop := ∀ g, m.gen = some g → g.Ok ∧ g.mappings.Truthful

theorem Spec.GensMade.good {m : SmHolder} (h : GensMade m) : m.GenGood := by
  intro g hg
  obtain ⟨a, r, ps, hm⟩ := h g hg
  exact ⟨hm.inv.1, hm.inv.2.1⟩

theorem SmHolder.GenGood.getGen {m m' : SmHolder} {g : Generator} (h : m.GenGood) (e : m.getGen = .ok (g, m')) :
    g.Ok ∧ g.mappings.Truthful ∧ m'.data = m.data ∧ m'.gen = some g := by
  unfold SmHolder.getGen at e
  split at e
  · rename_i g' hg
    cases e
    exact ⟨(h _ hg).1, (h _ hg).2, rfl, hg⟩
  · split at e
    · cases e
    · split at e
      · cases e
      · rename_i d hd _ g' eg
        cases e
        exact ⟨(fromSourceMap_good eg).1, (fromSourceMap_good eg).2, hd ▸ rfl, rfl⟩

theorem Sms.node_good {s s' : Sms} {n : SmNode} (e : s.node = .ok (n, s')) (hm : s.map.GenGood)
    (hi : ∀ ih, s.inner = some ih → ih.GenGood) :
    s'.map.GenGood ∧ (∀ ih, s'.inner = some ih → ih.GenGood) ∧ s'.map.data = s.map.data ∧ s'.value = s.value ∧
      s'.map.gen.isSome = true := by
  have one : ∀ {m : SmHolder} {g : Generator}, m.gen = some g → g.Ok → g.mappings.Truthful → m.GenGood := by
    intro m g hg h1 h2 g' hg'
    rw [hg] at hg'; cases hg'
    exact ⟨h1, h2⟩
  unfold Sms.node at e
  split at e
  · cases e
  · rename_i g map hg
    obtain ⟨hok, htr, hd, hgm⟩ := hm.getGen hg
    split at e
    · rename_i hn
      split at e
      · cases e
      · cases e
        exact ⟨one hgm hok htr, (fun ih h => by rw [hn] at h; cases h), hd, rfl, by simp [hgm]⟩
    · rename_i ih hn
      split at e
      · cases e
      · rename_i ig ih' hig
        obtain ⟨iok, itr, ihd, _⟩ := (hi ih hn).getGen hig
        have hG : ∀ g0 : Generator, g0 = (if s.original.isSome = true then g.setSourceContent s.name s.original
            else g) → g0.Ok ∧ g0.mappings.Truthful := by
          rintro g0 rfl
          split
          · refine ⟨Generator.setContent_ok hok _ _, ?_⟩
            have : (g.setSourceContent s.name s.original).mappings = g.mappings := by
              unfold Generator.setSourceContent; split <;> rfl
            rw [this]; exact htr
          · exact ⟨hok, htr⟩
        dsimp only at e
        generalize hg0 : (if s.original.isSome = true then g.setSourceContent s.name s.original else g) = g0 at e
        obtain ⟨h3, h4⟩ := hG g0 hg0.symm
        split at e
        · cases e
        · rename_i g2 ig2 happ
          have : g2.Ok ∧ g2.mappings.Truthful ∧ ig2.Ok ∧ ig2.mappings.Truthful := by
            split at happ
            · cases happ
              exact ⟨h3, h4, iok, itr⟩
            · obtain ⟨f, _, k1, k2, _, k4⟩ := applySourceMap_ok h3 iok itr happ
              refine ⟨k1, fun hh => (by rw [k2] at hh; cases hh), ?_⟩
              rcases k4 with rfl | rfl
              · exact ⟨iok, itr⟩
              · exact ⟨Generator.sort_ok iok, fun _ => by
                  rw [MappingList.sort_list itr]; exact sortBy_sorted _⟩
          obtain ⟨k1, k2, k3, k4⟩ := this
          split at e
          · cases e
          · cases e
            exact ⟨one rfl k1 k2, (fun ih h => by cases h; exact one rfl k3 k4), hd, rfl, rfl⟩

/-- What reads keep, for line reads. -/
structure Sms.Kept (s₀ s : Sms) : Prop where
  value : s.value = s₀.value
  map : s.map.GenGood
  inner : ∀ ih, s.inner = some ih → ih.GenGood
  data : ∀ d, s₀.map.data = some d → s.map.data = some d
  lines : s₀.map.data = none → s.map.LineSafe

theorem Sms.Reads.kept {s₀ s : Sms} (hr : Sms.Reads s₀ s) (h0 : Sms.Kept s₀ s₀) : Sms.Kept s₀ s := by
  induction hr with
  | refl => exact h0
  | @node s s' n _ e ih =>
    obtain ⟨h1, h2, h3, h4, h5⟩ := Sms.node_good e ih.map ih.inner
    refine ⟨h4.trans ih.value, h1, h2, fun d hd => h3.trans (ih.data d hd), fun hn => ⟨?_, ?_⟩⟩
    · rw [h3]; exact (ih.lines hn).data
    · intro _
      obtain ⟨g, hg⟩ := Option.isSome_iff_exists.1 h5
      exact ⟨g, hg, h1 g hg⟩
  | @listMap s s' b m _ e ih =>
    unfold Sms.listMap at e
    split at e
    · cases e; exact ih
    · cases hd : s.map.getData with
      | error x => rw [hd] at e; cases e
      | ok p =>
        obtain ⟨d, map⟩ := p
        rw [hd] at e
        dsimp only at e
        split at e
        · cases e
        · cases e
          cases hs : s.map.data with
          | some d' =>
            unfold SmHolder.getData at hd
            rw [hs] at hd
            cases hd
            exact ⟨ih.value, ih.map, ih.inner, ih.data, ih.lines⟩
          | none =>
            have hn : s₀.map.data = none := by
              cases h : s₀.map.data with
              | none => rfl
              | some d0 => rw [ih.data d0 h] at hs; cases hs
            obtain ⟨d2, m2, e2, _, k, _⟩ := (ih.lines hn).getData
            rw [hd] at e2
            cases e2
            refine ⟨ih.value, ?_, ih.inner, fun d h => (by rw [hn] at h; cases h), fun _ => k⟩
            unfold SmHolder.getData at hd
            rw [hs] at hd
            dsimp only at hd
            split at hd
            · cases hd
            · rename_i g hg
              split at hd
              · cases hd
              · rename_i et
                cases hd
                intro g' hg'
                cases hg'
                have hs : g.mappings.sort.list.Pairwise (fun a b => Mapping.le a b = true) := by
                  rw [MappingList.sort_list (ih.map g hg).2]; exact sortBy_sorted _
                obtain ⟨m3, e3, _⟩ := Generator.toSourceMap_ok (ih.map g hg).1 hs
                rw [et] at e3
                cases e3
                exact ⟨Generator.sort_ok (ih.map g hg).1, fun _ => hs⟩

/-- Whether a read for lines answers. -/
theorem Sms.listMap_iff {s₀ s : Sms} (hr : Sms.Reads s₀ s) (h0 : Sms.Kept s₀ s₀) (b : Bool) :
    (∃ r, s.listMap b = .ok r) ↔ (b = true → ∀ d, s₀.map.data = some d →
      ∃ ls n, IsLines '\n' s₀.value ls ∧ Numbered ls.length d.mappings n) := by
  have k := hr.kept h0
  cases b with
  | false => exact ⟨(fun _ e => by cases e), fun _ => ⟨_, rfl⟩⟩
  | true =>
    cases hd : s₀.map.data with
    | none =>
      refine ⟨(fun _ _ d e => by cases e), fun _ => ?_⟩
      obtain ⟨m, s', e, _⟩ := Sms.listMap_lineSafe (k.lines hd) true
      exact ⟨_, e⟩
    | some d =>
      have hs := k.data d hd
      have e : s.listMap true = match slmFromString s₀.value d.sources d.contents d.mappings with
          | .error x => .error x
          | .ok m => .ok (m, s) := by
        rw [← k.value]
        unfold Sms.listMap SmHolder.getData
        rw [hs]
        simp only [Bool.not_true, Bool.false_eq_true, if_false]
        cases slmFromString s.value d.sources d.contents d.mappings <;> rfl
      have hls := isLines_splitKeep '\n' s₀.value
      have := C79_reads s₀.value d.sources d.contents d.mappings _ hls
      rw [e]
      constructor
      · rintro ⟨r, e'⟩ _ d' h'
        cases h'
        cases hm : slmFromString s₀.value d.sources d.contents d.mappings with
        | error x => rw [hm] at e'; cases e'
        | ok m =>
          obtain ⟨n, hn⟩ := this.1 ⟨m, hm⟩
          exact ⟨_, n, hls, hn⟩
      · intro h'
        obtain ⟨ls, n, h1, h2⟩ := h' rfl d rfl
        rw [IsLines.unique '\n' _ ls h1] at h2
        obtain ⟨m, hm⟩ := this.2 ⟨n, h2⟩
        rw [hm]
        exact ⟨_, rfl⟩

/-- C33 for maps without columns, exactly, whatever data is given: a read answers if and only if following references comes
to an end, no prefix or replacement is put over a plain string and, unless `module` is false, every map below that was given
as data can be read for the lines its text has. -/
theorem C33_lines (ops : List Op) (h : Heap) (hrun : run ops = .ok h) (hm : ∀ op ∈ ops, MapsMade op) (i : Nat)
    (module_ : Bool) (file : Option Int) :
    (∃ r, apiSourceAndMap h i false module_ file = .ok r) ↔
      Sound ops (fun op => ¬ OverText op ∧ (module_ = true → MapsLined op)) i := by
  obtain ⟨A, hA, H⟩ := run_abs hrun
  have V := stepAll_valid (A := []) (by intro i a h; simp at h) ops hA
  have start : ∀ {s₀ : Sms}, s₀.map.Given → GensMade s₀.map → (∀ ih, s₀.inner = some ih → GensMade ih) →
      Sms.Kept s₀ s₀ := by
    intro s₀ h1 h2 h3
    refine ⟨rfl, h2.good, fun ih e => (h3 ih e).good, fun d h => h, fun hn => ⟨fun d e => (by rw [hn] at e; cases e), ?_⟩⟩
    intro _
    rcases h1 with h1 | h1
    · rw [hn] at h1; cases h1
    · obtain ⟨g, hg⟩ := Option.isSome_iff_exists.1 h1
      exact ⟨g, hg, h2.good g hg⟩
  have key : ∀ {Q : Sms → Prop}, (∀ s₀, Sms.Kept s₀ s₀ → ((module_ = true → ∀ d, s₀.map.data = some d →
      ∃ ls n, IsLines '\n' s₀.value ls ∧ Numbered ls.length d.mappings n) ↔ Q s₀)) →
      (Sound ops (fun op => ¬ OverText op ∧ (module_ = true → MapsLined op)) i ↔ ASound A (AObj.Fine Q) i) := by
    intro Q hQ
    refine sound_iff hA (fun i op a hop ha => ?_) i
    cases op with
    | newPrefix p c =>
      simp only [objOf, Option.some.injEq] at ha; subst ha
      cases c <;> simp [OverText, AObj.Fine, MapsLined]
    | newReplace c =>
      simp only [objOf, Option.some.injEq] at ha; subst ha
      cases c <;> simp [OverText, AObj.Fine, MapsLined]
    | newSms v vi n m o inner =>
      simp only [objOf, Option.some.injEq] at ha; subst ha
      obtain ⟨h1, h2, h3⟩ := hm _ hop
      refine Iff.trans ?_ (hQ _ (start h1 h2 h3))
      exact ⟨fun h => h.2, fun h => ⟨id, h⟩⟩
    | _ => simp [objOf] at ha; try (subst ha; simp [OverText, AObj.Fine, MapsLined])
  unfold apiSourceAndMap
  rw [if_neg (by decide)]
  constructor
  · rintro ⟨r, e⟩
    split at e
    · cases e
    · rename_i n h' e1
      obtain ⟨t, hs, ht⟩ := hListMap_seen A false module_ _ _ _ _ _ _ H e1
      refine (key (Q := fun s₀ => Sms.Kept s₀ s₀ → module_ = true → ∀ d, s₀.map.data = some d →
        ∃ ls n, IsLines '\n' s₀.value ls ∧ Numbered ls.length d.mappings n)
        (fun s₀ k => ⟨fun h _ => h, fun h => h k⟩)).2 ?_
      exact seen_listMap_sound' (fun s₀ s hr hn k => (Sms.listMap_iff hr k module_).1 hn) hs ht
  · intro hs
    have hs' : ASound A (AObj.Fine (Sms.LinesSafeAt module_)) i := by
      refine (key fun s₀ k => ⟨fun h s hr => ?_, fun h => ?_⟩).1 hs
      · obtain ⟨⟨m, s'⟩, e⟩ := (Sms.listMap_iff hr k module_).2 h
        exact ⟨m, s', e⟩
      · obtain ⟨m, s', e⟩ := h s₀ .refl
        exact (Sms.listMap_iff .refl k module_).1 ⟨_, e⟩
    obtain ⟨t, u⟩ := unfolds_of_acc V hs'.acc hs'.lt
    have g : Going A (budget h) [] t.depth := by rw [budget, ← H.1]; exact Going.start A _
    obtain ⟨m, h', e, _⟩ := hListMap_answers false module_ hs' t u (budget h) [] h g H
    rw [apiListMap, e]
    exact ⟨_, rfl⟩

/-! Non-trivial case: the map of the first object has a segment of ten numbers, that of the second one of two, and neither
is well-formed. With columns the first can be read and the second cannot; without, both can, but the third, whose second
line says nothing that can be read, cannot. -/

def C33_any : List Op :=
  [.newSms "x\ny".toList 1 2 ⟨some ⟨[5, 5, 6], [], [7], "AACAACCACA;AAAA".toList⟩, none⟩ none none,
   .newSms "x\ny".toList 1 2 ⟨some ⟨[5, 5, 6], [], [], "AC;AACA".toList⟩, none⟩ none none,
   .newSms "x\ny".toList 1 2 ⟨some ⟨[5, 5, 6], [], [], "AAAA;?;".toList⟩, none⟩ none none,
   .newConcat, .add 3 (.ref 0), .newConcat, .add 4 (.ref 0), .add 4 (.ref 1), .newConcat, .add 5 (.ref 2)]

theorem C33_any_made : ∀ op ∈ C33_any, MapsMade op := by
  intro op hop
  simp only [C33_any, List.mem_cons, List.not_mem_nil, or_false] at hop
  rcases hop with rfl | rfl | rfl | rfl | rfl | rfl | rfl | rfl | rfl | rfl
  all_goals first
    | trivial
    | exact ⟨.inl rfl, fun g h => (by cases h), fun ih h => by cases h⟩

theorem c33_not_open : ¬ Opens ⟨some ⟨[5, 5, 6], [], [], "AC;AACA".toList⟩, none⟩ := by
  intro h
  obtain ⟨d, e, k⟩ := h rfl
  cases e
  exact c81_refused (by decide +kernel) k

example : Sound C33_any (fun op => ¬ OverText op ∧ MapsOpen op) 3 ∧
    ¬ Sound C33_any (fun op => ¬ OverText op ∧ MapsOpen op) 4 := by
  have i3 : items C33_any 3 = [.ref 0] := by decide
  have i4 : items C33_any 4 = [.ref 0, .ref 1] := by decide
  refine ⟨.intro (op := .newConcat) rfl ⟨id, trivial⟩ ?_, ?_⟩
  · intro j hj
    simp only [below, i3, List.mem_singleton, Src.ref.injEq] at hj
    subst hj
    exact .intro rfl ⟨id, fun _ => ⟨_, rfl, c81_read⟩, fun ih h => by cases h⟩ (fun j hj => by cases hj)
  · intro h
    cases h with
    | intro h0 _ hb =>
      cases h0
      have := hb 1 (by simp [below, i4])
      cases this with
      | intro h0 hp _ => cases h0; exact c33_not_open hp.2.1

theorem c33_lined : MapsLined (.newSms "x\ny".toList 1 2 ⟨some ⟨[5, 5, 6], [], [], "AC;AACA".toList⟩, none⟩ none none) := by
  rintro d ⟨⟩
  refine ⟨_, [[[0, 1]], [[0, 0, 1]]], isLines_splitKeep _ _, ?_⟩
  have e : (cut ';' "AC;AACA".toList).take (splitKeep '\n' "x\ny".toList).length = ["AC".toList, "AACA".toList] := by
    decide +kernel
  unfold Numbered
  dsimp only
  rw [e]
  exact (.cons ((leads_iff _ [[0, 1]]).1 (by decide +kernel)) (.cons ((leads_iff _ [[0, 0, 1]]).1 (by decide +kernel)) .nil))

example : trapOfMap C33_any 3 true = none ∧ (trapOfMap C33_any 4 true).isSome = true ∧
    trapOfMap C33_any 4 false = none ∧ (trapOfMap C33_any 5 false).isSome = true ∧
    (run C33_any).toOption.isSome = true := by decide +kernel

end WS
