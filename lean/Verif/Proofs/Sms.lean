import Verif.Model.History
import Verif.Proofs.Sort
/-! # `SourceMapSource` state -/

namespace WS

/-- The states a `SourceMapSource` can be in after reads that did not trap. -/
inductive Sms.Reads (s₀ : Sms) : Sms → Prop where
  | refl : Sms.Reads s₀ s₀
  | node {s s' n} : Sms.Reads s₀ s → s.node = .ok (n, s') → Sms.Reads s₀ s'
  | listMap {s s' b m} : Sms.Reads s₀ s → s.listMap b = .ok (m, s') → Sms.Reads s₀ s'

/-- Two states that answer every read the same way, now and after further reads. -/
structure Sms.Same (s₀ s : Sms) : Prop where
  value : s.value = s₀.value
  node : s.node.map Prod.fst = s₀.node.map Prod.fst
  listMap : ∀ b, (s.listMap b).map Prod.fst = (s₀.listMap b).map Prod.fst

/-- Kept stable by reads: the map was given as data, or it was given as a generator whose mappings
are in order and there is no inner map. -/
def Sms.Stable (s : Sms) : Prop :=
  s.innerApplied = false ∧
  (s.map.data.isSome = true ∨
    (s.map.data = none ∧ s.inner = none ∧ ∃ g, s.map.gen = some g ∧ g.mappings.sort = g.mappings))

/-! ## Association lists -/

theorem lookup_append {β : Type _} (k : Int) (l l' : List (Int × β)) :
    (l ++ l').lookup k = (l.lookup k).or (l'.lookup k) := by
  induction l with
  | nil => simp
  | cons p l ih =>
    obtain ⟨a, b⟩ := p
    simp only [List.cons_append, List.lookup]
    split <;> simp [ih]

theorem lookup_amOrInsert {β : Type _} (l : List (Int × β)) (k k' : Int) (v : β) :
    (amOrInsert l k v).lookup k' = if k' = k then some ((l.lookup k).getD v) else l.lookup k' := by
  unfold amOrInsert
  split
  · rename_i w h
    split
    · rename_i e; subst e; rw [h]; rfl
    · rfl
  · rename_i h
    rw [lookup_append]
    split
    · rename_i e; subst e; simp [h]
    · rename_i e
      have : (k' == k) = false := by simpa using e
      simp only [List.lookup, this]
      cases l.lookup k' <;> rfl

theorem amOrInsert_of_some {β : Type _} {l : List (Int × β)} {k : Int} (h : (l.lookup k).isSome)
    (v : β) : amOrInsert l k v = l := by
  unfold amOrInsert
  split
  · rfl
  · simp_all

theorem addSource_contents (g : Generator) (s : Int) : (g.addSource s).contents = g.contents := rfl
theorem addName_contents (g : Generator) (s : Int) : (g.addName s).contents = g.contents := rfl

theorem foldl_addSource_contents (l : List Int) (g : Generator) :
    (l.foldl Generator.addSource g).contents = g.contents := by
  induction l generalizing g with
  | nil => rfl
  | cons a l ih => rw [List.foldl_cons, ih, addSource_contents]

theorem foldl_addName_contents (l : List Int) (g : Generator) :
    (l.foldl Generator.addName g).contents = g.contents := by
  induction l generalizing g with
  | nil => rfl
  | cons a l ih => rw [List.foldl_cons, ih, addName_contents]

theorem setContent_isSome (g : Generator) (k s : Int) (c : Int)
    (h : (g.contents.lookup k).isSome) : ((g.setSourceContent s (some c)).contents.lookup k).isSome := by
  simp only [Generator.setSourceContent, lookup_amOrInsert]
  split
  · simp
  · exact h

theorem foldl_setContent_isSome (l : List (Int × Int)) (g : Generator) (k : Int)
    (h : (g.contents.lookup k).isSome) :
    ((l.foldl (fun g p => g.setSourceContent p.1 (some p.2)) g).contents.lookup k).isSome := by
  induction l generalizing g with
  | nil => exact h
  | cons a l ih => rw [List.foldl_cons]; exact ih _ (setContent_isSome g k _ _ h)

theorem apply_contents_isSome {g inner g' inner' : Generator} {f : Int}
    (h : g.applySourceMap inner (some f) = .ok (g', inner')) (k : Int)
    (hk : (g.contents.lookup k).isSome) : (g'.contents.lookup k).isSome := by
  simp only [Generator.applySourceMap] at h
  injection h with h
  injection h with h1 h2
  rw [← h1]
  apply foldl_setContent_isSome
  rw [foldl_addName_contents, foldl_addSource_contents]
  exact hk

theorem setContent_noop {g : Generator} {k : Int} (h : (g.contents.lookup k).isSome) (c : Int) :
    g.setSourceContent k (some c) = g := by
  simp [Generator.setSourceContent, amOrInsert_of_some h]

theorem setContent_lookup (g : Generator) (k c : Int) :
    ((g.setSourceContent k (some c)).contents.lookup k).isSome := by
  simp [Generator.setSourceContent, lookup_amOrInsert]

/-! ## `node` -/

theorem getGen_map {h h' : SmHolder} {g : Generator} (e : h.getGen = .ok (g, h')) :
    h'.gen = some g ∧ h'.data = h.data := by
  unfold SmHolder.getGen at e
  (repeat' split at e) <;> first | (cases e; done) | skip
  all_goals (injection e with e; injection e with e1 e2; subst e1; subst e2; simp_all)

theorem getGen_of_gen {h : SmHolder} {g : Generator} (e : h.gen = some g) : h.getGen = .ok (g, h) := by
  simp [SmHolder.getGen, e]

/-- What `node` does, as an equation without intermediate bindings. -/
theorem Sms.node_ok {s s' : Sms} {n : SmNode} (h : s.node = .ok (n, s')) :
    ∃ g map, s.map.getGen = .ok (g, map) ∧
      ((s.inner = none ∧ fromStringWithGenerator s.value g = .ok n ∧ s' = { s with map }) ∨
       (∃ ih ig ih' g2 ig2, s.inner = some ih ∧ ih.getGen = .ok (ig, ih') ∧
          (if s.innerApplied then
              (.ok (if s.original.isSome then g.setSourceContent s.name s.original else g, ig) : M _)
           else (if s.original.isSome then g.setSourceContent s.name s.original
              else g).applySourceMap ig (some s.name)) = .ok (g2, ig2) ∧
          fromStringWithGenerator s.value g2 = .ok n ∧
          s' = { s with map := { map with gen := some g2 }
                        inner := some { ih' with gen := some ig2 }
                        innerApplied := true })) := by
  unfold Sms.node at h
  split at h
  · cases h
  · rename_i g map hg
    refine ⟨g, map, hg, ?_⟩
    split at h
    · rename_i hi
      split at h
      · cases h
      · rename_i n' hn
        injection h with h; injection h with h1 h2; subst h1
        exact .inl ⟨hi, hn, by rw [← h2, hi]⟩
    · rename_i ih hi
      split at h
      · cases h
      · rename_i ig ih' hig
        dsimp only at h
        generalize hx : (if s.innerApplied = true then _ else _ : M (Generator × Generator)) = x at h
        cases x with
        | error e => cases h
        | ok q =>
          obtain ⟨g2, ig2⟩ := q
          dsimp only at h
          split at h
          · cases h
          · rename_i n' hn
            injection h with h; injection h with h1 h2; subst h1
            exact .inr ⟨ih, ig, ih', g2, ig2, hi, hig, hx, hn, h2.symm⟩

theorem Sms.node_value {s s' : Sms} {n : SmNode} (h : s.node = .ok (n, s')) : s'.value = s.value := by
  obtain ⟨g, map, _, ⟨_, _, rfl⟩ | ⟨_, _, _, _, _, _, _, _, _, rfl⟩⟩ := Sms.node_ok h <;> rfl

theorem Sms.node_data {s s' : Sms} {n : SmNode} (h : s.node = .ok (n, s')) :
    s'.map.data = s.map.data ∧ s'.name = s.name ∧ s'.valueIdx = s.valueIdx := by
  obtain ⟨g, map, hg, ⟨_, _, rfl⟩ | ⟨_, _, _, _, _, _, _, _, _, rfl⟩⟩ := Sms.node_ok h <;>
    exact ⟨(getGen_map hg).2, rfl, rfl⟩

/-- Reading the node twice gives the same node and state. -/
theorem Sms.node_idem {s s' : Sms} {n : SmNode} (h : s.node = .ok (n, s')) :
    s'.node = .ok (n, s') := by
  obtain ⟨g, map, hg, ⟨hi, hn, rfl⟩ | ⟨ih, ig, ih', g2, ig2, hi, hig, ha, hn, rfl⟩⟩ := Sms.node_ok h
  · simp [Sms.node, getGen_of_gen (getGen_map hg).1, hi, hn]
  · have key : (if s.original.isSome = true then g2.setSourceContent s.name s.original else g2)
        = g2 := by
      split
      · rename_i ho
        cases hor : s.original with
        | none => simp [hor] at ho
        | some c =>
          apply setContent_noop
          rw [hor] at ha
          split at ha
          · injection ha with ha; injection ha with ha1 ha2; rw [← ha1]
            simpa using setContent_lookup g s.name c
          · apply apply_contents_isSome ha
            simpa using setContent_lookup g s.name c
      · rfl
    simp [Sms.node, getGen_of_gen, key, hn]

theorem Sms.node_same {s s' : Sms} {n : SmNode} (h : s.node = .ok (n, s')) :
    s'.node.map Prod.fst = s.node.map Prod.fst := by
  rw [Sms.node_idem h, h]

theorem getData_of_data {h : SmHolder} {d : SmData} (e : h.data = some d) :
    h.getData = .ok (d, h) := by
  simp [SmHolder.getData, e]

/-- With data present the list map does not depend on (or change) anything else. -/
theorem Sms.listMap_of_data {s : Sms} {d : SmData} (hd : s.map.data = some d) (b : Bool) :
    s.listMap b = if !b then .ok (slmNewStr s.value (some s.name) (some s.valueIdx), s)
      else (slmFromString s.value d.sources d.contents d.mappings).map fun m => (m, s) := by
  unfold Sms.listMap
  rw [getData_of_data hd]
  split
  · rfl
  · simp only
    split <;> rename_i h <;> rw [h] <;> rfl

/-- Invariant of the reads from a stable state. -/
theorem Sms.reads_same {s₀ s : Sms} (hs : s₀.Stable) (h : Sms.Reads s₀ s) : Sms.Same s₀ s := by
  obtain ⟨ha, hd | ⟨hd, hi, g, hg, hsort⟩⟩ := hs
  · -- data present
    obtain ⟨d, hd⟩ := Option.isSome_iff_exists.1 hd
    have inv : (s.map.data = some d ∧ s.value = s₀.value ∧ s.name = s₀.name ∧
        s.valueIdx = s₀.valueIdx ∧ (s = s₀ ∨ ∃ n, s₀.node = .ok (n, s))) := by
      induction h with
      | refl => exact ⟨hd, rfl, rfl, rfl, .inl rfl⟩
      | @node s s' n _ hn ih =>
        obtain ⟨h1, h2, h3, h4, h5⟩ := ih
        have hv := Sms.node_value hn
        have hdat := Sms.node_data hn
        refine ⟨hdat.1.trans h1, hv.trans h2, hdat.2.1.trans h3, hdat.2.2.trans h4, .inr ?_⟩
        rcases h5 with rfl | ⟨m, hm⟩
        · exact ⟨n, hn⟩
        · have := Sms.node_idem hm
          rw [this] at hn
          injection hn with hn; injection hn with hn1 hn2; subst hn1; subst hn2
          exact ⟨m, hm⟩
      | @listMap s s' b m _ hm ih =>
        obtain ⟨h1, h2, h3, h4, h5⟩ := ih
        rw [Sms.listMap_of_data h1] at hm
        have : s' = s := by
          split at hm
          · injection hm with hm; injection hm with hm1 hm2; exact hm2.symm
          · cases hf : slmFromString s.value d.sources d.contents d.mappings with
            | error e => rw [hf] at hm; cases hm
            | ok x => rw [hf] at hm; injection hm with hm; injection hm with hm1 hm2; exact hm2.symm
        subst this
        exact ⟨h1, h2, h3, h4, h5⟩
    obtain ⟨h1, h2, h3, h4, h5⟩ := inv
    refine ⟨h2, ?_, ?_⟩
    · rcases h5 with rfl | ⟨n, hn⟩
      · rfl
      · exact Sms.node_same hn
    · intro b
      rw [Sms.listMap_of_data h1, Sms.listMap_of_data hd, h2, h3, h4]
      cases b with
      | false => rfl
      | true =>
        simp only [Bool.not_true, Bool.false_eq_true, if_false]
        cases slmFromString s₀.value d.sources d.contents d.mappings <;> rfl
  · -- generator only
    have getD : s₀.map.getData = g.toSourceMap.map fun p =>
        (⟨p.1.sources, p.1.sourcesContent, p.1.names, p.1.mappings⟩,
          ⟨some ⟨p.1.sources, p.1.sourcesContent, p.1.names, p.1.mappings⟩, some g⟩) := by
      simp only [SmHolder.getData, hd, hg]
      have : ∀ m g', g.toSourceMap = .ok (m, g') → g' = g := by
        intro m g' h
        simp only [Generator.toSourceMap, Generator.serializeMappings] at h
        split at h
        · cases h
        · rename_i hser
          split at hser
          · injection hser with hser; injection hser with _ h2
            injection h with h; injection h with _ h4
            rw [← h4, ← h2, hsort]
          · cases hser
      cases hh : g.toSourceMap with
      | error e => rfl
      | ok p =>
        obtain ⟨m, g'⟩ := p
        have := this m g' hh
        subst this
        rfl
    have nodeEq : ∀ s : Sms, s.map.gen = some g → s.inner = none → s.value = s₀.value →
        s.node = (fromStringWithGenerator s₀.value g).map fun n => (n, s) := by
      intro s h1 h2 h3
      unfold Sms.node
      rw [getGen_of_gen h1]
      simp only [h2, h3]
      cases fromStringWithGenerator s₀.value g <;> simp [Except.map, ← h2, ← h3]
    have inv : s.map.gen = some g ∧ s.inner = none ∧ s.value = s₀.value ∧ s.name = s₀.name ∧
        s.valueIdx = s₀.valueIdx ∧ (s.map = s₀.map ∨ s₀.map.getData.map Prod.snd = .ok s.map) := by
      induction h with
      | refl => exact ⟨hg, hi, rfl, rfl, rfl, .inl rfl⟩
      | @node s s' n _ hn ih =>
        obtain ⟨h1, h2, h3, h4, h5, h6⟩ := ih
        rw [nodeEq s h1 h2 h3] at hn
        have : s' = s := by
          cases hf : fromStringWithGenerator s₀.value g with
          | error e => rw [hf] at hn; cases hn
          | ok x => rw [hf] at hn; injection hn with hn; injection hn with _ h; exact h.symm
        subst this
        exact ⟨h1, h2, h3, h4, h5, h6⟩
      | @listMap s s' b m _ hm ih =>
        obtain ⟨h1, h2, h3, h4, h5, h6⟩ := ih
        unfold Sms.listMap at hm
        split at hm
        · injection hm with hm; injection hm with _ hm; subst hm; exact ⟨h1, h2, h3, h4, h5, h6⟩
        · split at hm
          · cases hm
          · rename_i d mp hdat
            split at hm
            · cases hm
            · injection hm with hm; injection hm with _ hm; subst hm
              rcases h6 with h6 | h6
              · rw [h6, getD] at hdat
                refine ⟨?_, h2, h3, h4, h5, .inr ?_⟩
                · cases hh : g.toSourceMap with
                  | error e => rw [hh] at hdat; cases hdat
                  | ok p =>
                    rw [hh] at hdat; injection hdat with hdat; injection hdat with _ hdat
                    rw [← hdat]
                · rw [getD, hdat]; rfl
              · have h6' := h6
                rw [getD] at h6
                cases hh : g.toSourceMap with
                | error e => rw [hh] at h6; cases h6
                | ok p =>
                  rw [hh] at h6; injection h6 with h6
                  simp only at h6
                  have := congrArg SmHolder.data h6.symm
                  rw [getData_of_data this] at hdat
                  injection hdat with hdat; injection hdat with _ hdat
                  subst hdat
                  exact ⟨h1, h2, h3, h4, h5, .inr h6'⟩
    obtain ⟨h1, h2, h3, h4, h5, h6⟩ := inv
    refine ⟨h3, ?_, ?_⟩
    · rw [nodeEq s h1 h2 h3, nodeEq s₀ hg hi rfl]
      cases fromStringWithGenerator s₀.value g <;> rfl
    · intro b
      have hdata : s.map.getData.map Prod.fst = s₀.map.getData.map Prod.fst := by
        rcases h6 with h6 | h6
        · rw [h6]
        · rw [getD] at h6 ⊢
          cases hh : g.toSourceMap with
          | error e => rw [hh] at h6; cases h6
          | ok p =>
            rw [hh] at h6; injection h6 with h6
            simp only at h6
            have := congrArg SmHolder.data h6.symm
            rw [getData_of_data this]
            rfl
      unfold Sms.listMap
      rw [h3, h4, h5]
      split
      · rfl
      · cases hx : s.map.getData with
        | error e =>
          cases hy : s₀.map.getData with
          | error e' => rw [hx, hy] at hdata; cases hdata; rfl
          | ok q => rw [hx, hy] at hdata; cases hdata
        | ok p =>
          cases hy : s₀.map.getData with
          | error e' => rw [hx, hy] at hdata; cases hdata
          | ok q =>
            rw [hx, hy] at hdata
            obtain ⟨p1, p2⟩ := p
            obtain ⟨q1, q2⟩ := q
            injection hdata with hdata
            simp only at hdata
            subst hdata
            simp only
            cases slmFromString s₀.value p1.sources p1.contents p1.mappings <;> rfl

end WS
