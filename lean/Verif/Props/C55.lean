import Verif.Props.C54
/-!
# C55: a map given to a `SourceMapSource` is used as it reads

Claim: when a program gives a map that `sourceAndMap()` or `map()` handed out to a `SourceMapSource`, as
its map or as its inner map, the new object gets a map with the sources, contents, names and mappings
that the properties of the given map read, whatever was read, assigned or given away before.

False for names assigned to a map without columns (`C55_not_general`): such a map has no `names`
setter, so the assignment goes unnoticed and the names are dropped.
-/

namespace WS
open Spec

/-- The entries of a property that is a list or `undefined`. -/
def Spec.JFieldVal.entries : JFieldVal → List JVal
  | .list l => l
  | _ => []

/-- The map a `SourceMapSource` holds, as data or as a generator, has these sources, contents, names
and mappings. -/
def Spec.Denotes (t : StrTable JVal) (hd : SmHolder) (ss cs ns : List JVal) (m : Str) : Prop :=
  ∃ d : SmData, (hd.data = some d ∨ hd.data = none ∧ ∃ g sm g', hd.gen = some g ∧
      g.toSourceMap = .ok (sm, g') ∧ d = sm.data) ∧
    t.values d.sources = some ss ∧ t.values d.contents = some cs ∧ t.values d.names = some ns ∧
    d.mappings = m

/-! ## Reads that still may come -/

/-- The property reads as `v`, if it can be read at all. -/
def Emitted.Would (f : JField) (v : JFieldVal) (t : StrTable JVal) (e : Emitted) : Prop :=
  e.Keeps f v ∨ e.Fresh t f v ∨ (e.Unread f ∧ e.wasm = none)

theorem Fresh.unread {t : StrTable JVal} {e : Emitted} {f : JField} {v : JFieldVal}
    (h : e.Fresh t f v) : e.Unread f := by
  cases f <;> simp only [Emitted.Fresh, Emitted.Unread] at h ⊢ <;> first | exact h.1 | exact ⟨h.1, h.2.1⟩

theorem Would.get {f : JField} {v u : JFieldVal} {w : World} {e e' : Emitted}
    (h : e.Would f v w.strs) (hg : e.get w f = .ok (u, e')) : u = v := by
  rcases h with h | h | ⟨h, hw⟩
  · rw [h.get w] at hg; cases hg; rfl
  · obtain ⟨e2, h2⟩ := h.get
    rw [h2] at hg; cases hg; rfl
  · rcases Emitted.get_cases hg with k | k
    · exact (Unread.not_keeps h k).elim
    · exfalso
      cases f with
      | source => obtain ⟨_, wm, k, _⟩ := k; rw [hw] at k; cases k
      | sources => obtain ⟨_, m, l, ⟨wm, _, k, _⟩, _⟩ := k; rw [hw] at k; cases k
      | contents => obtain ⟨_, m, l, ⟨wm, _, k, _⟩, _⟩ := k; rw [hw] at k; cases k
      | mappings => obtain ⟨_, m, ⟨wm, _, k, _⟩, _⟩ := k; rw [hw] at k; cases k
      | names => obtain ⟨_, _, m, l, ⟨wm, _, k, _⟩, _⟩ := k; rw [hw] at k; cases k

theorem Would.lasting (f : JField) (v : JFieldVal) : Lasting (fun t e => e.Would f v t) := by
  refine ⟨fun g h => h.imp_right (Or.imp_left (·.mono g)), ?_⟩
  intro w e e' g u h hg
  by_cases hfg : g = f
  · subst hfg
    cases Would.get h hg
    exact .inl (Emitted.get_keeps hg)
  rcases h with h | h | ⟨h, hw⟩
  · exact .inl (h.other hg)
  · exact .inr (.inl (h.other hg hfg))
  · refine .inr (.inr ⟨Unread.other h hg hfg, ?_⟩)
    rcases (Emitted.get_changes hg).1 with k | ⟨wm, m, wm', k, _⟩
    · rw [k]; exact hw
    · rw [hw] at k; cases k

theorem Would.move {f : JField} {v : JFieldVal} {t : StrTable JVal} {e : Emitted} (h : e.Would f v t) :
    Emitted.Would f v t { e with wasm := none } := by
  rcases h with h | h | h
  · exact .inl (Keeps.move h)
  · refine .inr (.inr ⟨?_, rfl⟩)
    have := Fresh.unread h
    cases f <;> exact this
  · refine .inr (.inr ⟨?_, rfl⟩)
    have := h.1
    cases f <;> exact this

/-! ## A map that was not modified reads as its wasm object says -/

/-- Modified, moved, or what was read is what the wasm object says. -/
def Emitted.Plain (c : Bool) (t : StrTable JVal) (e : Emitted) : Prop :=
  e.modified = true ∨ e.wasm = none ∨ e.hasNames = c ∧
    ((c = true ∧ ∀ f, f ≠ .source → e.Unread f) ∨
      ∃ m, e.Yields m ∧ (c = false → m.names = []) ∧
        ∀ f, f ≠ .source → e.Unread f ∨ ∃ v, e.Keeps f v ∧ Displays t c [] m f v)

theorem fresh_displays {t : StrTable JVal} {e : Emitted} {f : JField} {v : JFieldVal} {m : SourceMap}
    {c : Bool} (h : e.Fresh t f v) (hf : f ≠ .source) (hc : e.hasNames = c) (hy : e.Yields m) :
    Displays t c [] m f v := by
  have key := Fresh.displays (s := match e.wasm with | some wm => wm.s | none => []) h (fun _ => hc) hy (by
    obtain ⟨wm, _, h1, _⟩ := hy
    exact ⟨wm, h1, by rw [h1]⟩)
  cases f <;> first | exact absurd rfl hf | exact key

theorem fresh_yields {t : StrTable JVal} {e : Emitted} {f : JField} {v : JFieldVal}
    (h : e.Fresh t f v) (hf : f ≠ .source) : ∃ m, e.Yields m := by
  cases f with
  | source => exact absurd rfl hf
  | sources => obtain ⟨_, m, _, h, _⟩ := h; exact ⟨m, h⟩
  | contents => obtain ⟨_, m, _, h, _⟩ := h; exact ⟨m, h⟩
  | mappings => obtain ⟨_, m, h, _⟩ := h; exact ⟨m, h⟩
  | names => obtain ⟨_, _, m, _, h, _⟩ := h; exact ⟨m, h⟩

theorem Plain.lasting (c : Bool) : Lasting (fun t e => e.Plain c t) := by
  refine ⟨?_, ?_⟩
  · intro t t' e g h
    rcases h with h | h | ⟨h1, h | ⟨m, h2, h3, h4⟩⟩
    · exact .inl h
    · exact .inr (.inl h)
    · exact .inr (.inr ⟨h1, .inl h⟩)
    · exact .inr (.inr ⟨h1, .inr ⟨m, h2, h3, fun f hf => (h4 f hf).imp_right
        fun ⟨v, k1, k2⟩ => ⟨v, k1, Displays.mono g k2⟩⟩⟩)
  · intro w e e' g u h hg
    have ch := Emitted.get_changes hg
    rcases h with h | h | ⟨h1, h⟩
    · exact .inl (by rw [ch.2.2.1]; exact h)
    · refine .inr (.inl ?_)
      rcases ch.1 with k | ⟨wm, m, wm', k, _⟩
      · rw [k]; exact h
      · rw [h] at k; cases k
    refine .inr (.inr ⟨by rw [ch.2.1]; exact h1, ?_⟩)
    rcases h with ⟨hc, h2⟩ | ⟨m, h2, h3, h4⟩
    · by_cases hs : g = .source
      · refine .inl ⟨hc, fun f hf => Unread.other (h2 f hf) hg ?_⟩
        rw [hs]; exact hf.symm
      · rcases Emitted.get_cases hg with k | k
        · exact (Unread.not_keeps (h2 g hs) k).elim
        · obtain ⟨m, hy⟩ := fresh_yields k hs
          refine .inr ⟨m, hy.get hg, fun h => (by rw [hc] at h; cases h), fun f hf => ?_⟩
          by_cases hfg : g = f
          · subst hfg
            exact .inr ⟨u, Emitted.get_keeps hg, fresh_displays k hs h1 hy⟩
          · exact .inl (Unread.other (h2 f hf) hg hfg)
    · refine .inr ⟨m, h2.get hg, h3, fun f hf => ?_⟩
      rcases h4 f hf with k | ⟨v, k1, k2⟩
      · by_cases hfg : g = f
        · subst hfg
          rcases Emitted.get_cases hg with k' | k'
          · exact (Unread.not_keeps k k').elim
          · exact .inr ⟨u, Emitted.get_keeps hg, fresh_displays k' hf h1 h2⟩
        · exact .inl (Unread.other k hg hfg)
      · exact .inr ⟨v, k1.other hg, k2⟩

theorem Plain.set {c : Bool} {t : StrTable JVal} {e : Emitted} (h : e.Plain c t) {a : JAssign}
    (ha : c = true ∨ a.field ≠ .names) : (e.set a).Plain c t := by
  by_cases hs : a.field = .source
  · cases a <;> first | cases hs | skip
    rename_i s
    rcases h with h | h | ⟨h1, ⟨h, h2⟩ | ⟨m, h2, h3, h4⟩⟩
    · exact .inl h
    · exact .inr (.inl h)
    · refine .inr (.inr ⟨h1, .inl ⟨h, fun f hf => ?_⟩⟩)
      have := h2 f hf
      cases f <;> first | exact absurd rfl hf | exact this
    · refine .inr (.inr ⟨h1, .inr ⟨m, h2, h3, fun f hf => ?_⟩⟩)
      have := h4 f hf
      cases f <;> first | exact absurd rfl hf | exact this
  · by_cases hn : a.field = .names
    · cases a <;> first | cases hn | skip
      rename_i l
      have hc := ha.resolve_right (fun h => h rfl)
      rcases h with h | h | ⟨h1, h⟩
      · refine .inl ?_
        simp only [Emitted.set]; split <;> first | rfl | exact h
      · refine .inr (.inl ?_)
        simp only [Emitted.set]; split <;> exact h
      · refine .inl ?_
        simp only [Emitted.set, h1, hc, if_true]
    · exact .inl (by cases a <;> first | rfl | exact absurd rfl hs | exact absurd rfl hn)

theorem Plain.new {c : Bool} {wm : WasmMap} {t : StrTable JVal}
    (h : c = false → ∃ m wm', wm.getMap = .ok (m, wm') ∧ m.names = []) :
    (Emitted.new wm c).Plain c t := by
  refine .inr (.inr ⟨rfl, ?_⟩)
  cases c with
  | true =>
    refine .inl ⟨rfl, fun f hf => ?_⟩
    cases f <;> simp_all [Emitted.Unread, Emitted.new]
  | false =>
    obtain ⟨m, wm', h1, h2⟩ := h rfl
    refine .inr ⟨m, ⟨wm, wm', rfl, h1⟩, fun _ => h2, fun f hf => ?_⟩
    cases f with
    | source => exact absurd rfl hf
    | names => exact .inr ⟨.undefined, .inr ⟨rfl, rfl⟩, rfl⟩
    | _ => exact .inl rfl

/-! ## Giving -/

theorem World.internAll_values : ∀ {vs : List JVal} {w : World}, w.strs.Ok →
    (w.internAll vs).2.strs.Ok ∧ (w.internAll vs).2.strs.values (w.internAll vs).1 = some vs
  | [], w, h => ⟨h, rfl⟩
  | v :: vs, w, h => by
    have h2 := World.internAll_values (vs := vs) (w := (w.intern v).2) (h.add v)
    refine ⟨h2.1, StrTable.values_cons (by simp [World.internAll, World.intern]) ?_ h2.2⟩
    obtain ⟨r, hr⟩ := (World.internAll_same (w.intern v).2 vs).strs
    have := StrTable.add_at h v
    simp only [World.internAll, hr]
    exact getElem?_append_some (by simpa [World.intern] using this)

theorem World.internAllNew_values : ∀ {vs : List JVal} {w : World}, w.strs.Ok →
    (w.internAllNew vs).2.strs.Ok ∧ (w.internAllNew vs).2.strs.values (w.internAllNew vs).1 = some vs
  | [], w, h => ⟨h, rfl⟩
  | v :: vs, w, h => by
    have h2 := World.internAllNew_values (vs := vs) (w := (w.internNew v).2) (h.addUnchecked v)
    refine ⟨h2.1, StrTable.values_cons (by simp [World.internAllNew, World.internNew]) ?_ h2.2⟩
    obtain ⟨r, hr⟩ := (World.internAllNew_same (w.internNew v).2 vs).strs
    simp only [World.internAllNew, hr]
    exact getElem?_append_some (by simp [World.internNew, StrTable.addUnchecked])

theorem World.giveData_denotes {w : World} (h : w.strs.Ok) (ss cs ns : List JVal) (m : Str) :
    Denotes (w.giveData ss cs ns m).2.strs (w.giveData ss cs ns m).1 ss cs ns m := by
  have h1 := World.internAll_values (vs := ss) h
  have h2 := World.internAllNew_values (vs := cs) h1.1
  have h3 := World.internAll_values (vs := ns) h2.1
  have g2 := (World.internAllNew_same (w.internAll ss).2 cs).strs
  have g3 := (World.internAll_same ((w.internAll ss).2.internAllNew cs).2 ns).strs
  exact ⟨_, .inl rfl, StrTable.values_mono g3 (StrTable.values_mono g2 h1.2),
    StrTable.values_mono g3 h2.2, h3.2, rfl⟩

theorem World.give_denotes {w w' : World} {k : Nat} {e : Emitted} {hd : SmHolder} {c : Bool}
    {ss : List JVal} {m : Str} {cv nv : JFieldVal} (ok : w.strs.Ok) (hk : w.maps[k]? = some e)
    (hp : e.Plain c w.strs) (h1 : e.Would .sources (.list ss) w.strs)
    (h2 : e.Would .contents cv w.strs) (h3 : e.Would .mappings (.text m) w.strs)
    (h4 : e.Would .names nv w.strs) (r : w.give (.emitted k) = .ok (hd, w')) :
    Denotes w'.strs hd ss (Spec.JFieldVal.entries cv) (Spec.JFieldVal.entries nv) m := by
  simp only [World.give, hk] at r
  split at r
  · rename_i wm hwm
    cases r
    have hmod : e.modified = false := by
      cases hx : e.modified with
      | false => rfl
      | true => rw [hx] at hwm; cases hwm
    rw [hmod] at hwm
    have hwm : e.wasm = some wm := hwm
    rcases hp with hp | hp | ⟨hc, hp⟩
    · rw [hmod] at hp; cases hp
    · rw [hwm] at hp; cases hp
    -- every property says what the wasm object says
    have says : ∃ m', e.Yields m' ∧ (c = false → m'.names = []) ∧ ∀ f v, f ≠ .source →
        e.Would f v w.strs → Displays w.strs c [] m' f v := by
      have nomove : ∀ f v, e.Would f v w.strs → e.Keeps f v ∨ e.Fresh w.strs f v := by
        intro f v h
        rcases h with h | h | ⟨_, h⟩
        · exact .inl h
        · exact .inr h
        · rw [hwm] at h; cases h
      rcases hp with ⟨hc', hp⟩ | ⟨m', hy, hn, hp⟩
      · rcases nomove _ _ h3 with k | k
        · exact (Unread.not_keeps (hp .mappings (by simp)) k).elim
        · obtain ⟨m', hy⟩ := fresh_yields k (by simp)
          refine ⟨m', hy, fun h => (by rw [hc'] at h; cases h), fun f v hf hv => ?_⟩
          rcases nomove _ _ hv with k | k
          · exact (Unread.not_keeps (hp f hf) k).elim
          · exact fresh_displays k hf hc hy
      · refine ⟨m', hy, hn, fun f v hf hv => ?_⟩
        rcases nomove _ _ hv with k | k
        · rcases hp f hf with k' | ⟨u, k1, k2⟩
          · exact (Unread.not_keeps k' k).elim
          · have a := k.get w
            rw [k1.get w] at a; cases a
            exact k2
        · exact fresh_displays k hf hc hy
    obtain ⟨m', ⟨wm', wm2, hy1, hy2⟩, hn, says⟩ := says
    rw [hwm] at hy1; cases hy1
    have s1 := says _ _ (by simp) h1
    have s2 := says _ _ (by simp) h2
    have s3 := says _ _ (by simp) h3
    have s4 := says _ _ (by simp) h4
    refine ⟨m'.data, ?_, ?_, ?_, ?_, ?_⟩
    · simp only [WasmMap.getMap] at hy2
      split at hy2
      · rename_i m0 hm0; cases hy2
        exact .inl (by simp [hm0])
      · rename_i hm0
        split at hy2
        · cases hy2
        · rename_i g hg
          split at hy2
          · cases hy2
          · rename_i m0 g0 hg0
            cases hy2
            exact .inr ⟨by simp [hm0], g, m', g0, hg, hg0, rfl⟩
    · obtain ⟨l, k1, k2⟩ := s1
      cases k2; exact k1
    · obtain ⟨l, k1, k2⟩ := s2
      rw [k2]
      by_cases hl : l = []
      · rw [if_pos hl]; subst hl; exact k1
      · rw [if_neg hl]; exact k1
    · simp only [Displays] at s4
      cases c with
      | true =>
        obtain ⟨l, k1, k2⟩ := s4
        rw [k2]; exact k1
      | false =>
        have s4 : nv = .undefined := s4
        rw [s4]
        show w.strs.values m'.names = some []
        rw [hn rfl]; rfl
    · cases s3; rfl
  · simp only [Except.bind_ok_iff, Except.map_ok_iff] at r
    obtain ⟨a, ha, b, hb, c', hc, d, hd', r⟩ := r
    have g1 : e.get w .sources = .ok (.list a.1, a.2) := by simp only [Emitted.get, ha, Except.map]
    have g2 : a.2.get w .contents = .ok ((match b.1 with | some l => .list l | none => .undefined), b.2) :=
      by simp only [Emitted.get, hb, Except.map]; rfl
    have g3 : b.2.get w .mappings = .ok (.text c'.1, c'.2) := by simp [Emitted.get, hc, Except.map]
    have g4 : c'.2.get w .names = .ok ((if c'.2.hasNames then .list d.1 else .undefined), d.2) := by
      simp only [Emitted.get, hd', Except.map]
    have e1 := Would.get h1 g1
    have e2 := Would.get ((Would.lasting _ _).get h2 g1) g2
    have e3 := Would.get ((Would.lasting _ _).get ((Would.lasting _ _).get h3 g1) g2) g3
    have e4 := Would.get ((Would.lasting _ _).get ((Would.lasting _ _).get
      ((Would.lasting _ _).get h4 g1) g2) g3) g4
    cases e1
    cases e3
    have f2 : Spec.JFieldVal.entries cv = b.1.getD [] := by
      rw [← e2]
      cases b.1 <;> rfl
    have f4 : Spec.JFieldVal.entries nv = d.1 := by
      rw [← e4]
      simp only [Emitted.getNames] at hd'
      split at hd'
      · rename_i hn; rw [if_pos hn]; rfl
      · rename_i hn; rw [if_neg hn]; cases hd'; rfl
    have key := World.giveData_denotes (w := { w with maps := w.maps.set k d.2 }) ok a.1 (b.1.getD [])
      d.1 c'.1
    rw [r] at key
    rw [f2, f4]
    exact key

theorem World.run_ok {ops : List JOp} {w : World} (e : World.run ops = .ok w) : w.strs.Ok := by
  have := World.run_within ops
  rw [e] at this
  exact this.strs

theorem reads_would {w : World} {k : Nat} {f : JField} {v : JFieldVal} (h : Reads w k f v) {e : Emitted}
    (hk : w.maps[k]? = some e) : e.Would f v w.strs := by
  obtain ⟨w', h⟩ := h
  simp only [JOp.run, hk, Except.map_ok_iff] at h
  obtain ⟨p, h1, h2⟩ := h
  cases h2
  exact (Emitted.get_cases h1).imp_right .inl

theorem World.emit_plain {w w1 : World} {j k : Nat} {columns module_ : Bool}
    (r : w.emit j columns module_ = .ok (.pair k, w1)) :
    ∃ wm, w1.maps[k]? = some (Emitted.new wm columns) ∧
      (columns = false → ∃ m wm', wm.getMap = .ok (m, wm') ∧ m.names = []) := by
  unfold World.emit at r
  split at r
  · cases r
  split at r
  · cases r
  split at r
  · rename_i hc
    subst hc
    simp only [Except.bind_ok_iff] at r
    obtain ⟨⟨a, w2⟩, h1, h2⟩ := r
    dsimp only at h2
    split at h2
    · cases h2
      exact ⟨_, List.getElem?_concat_length, fun h => (by cases h)⟩
    · cases h2
  · rename_i hc
    have hc : columns = false := by simpa using hc
    subst hc
    simp only [Except.bind_ok_iff] at r
    obtain ⟨⟨a, w2⟩, h1, h2⟩ := r
    dsimp only at h2
    split at h2
    · cases h2
      exact ⟨_, List.getElem?_concat_length, fun _ => ⟨_, _, rfl, rfl⟩⟩
    · cases h2

theorem runFrom_append : ∀ (a b : List JOp) (w : World),
    w.runFrom (a ++ b) = (w.runFrom a).bind fun w' => w'.runFrom b
  | [], _, _ => rfl
  | op :: a, b, w => by
    simp only [List.cons_append, World.runFrom]
    cases op.run w with
    | error x => rfl
    | ok p => exact runFrom_append a b p.2

theorem handed_ok {before more : List JOp} {w w1 w2 : World} {op : JOp} {ans : JAnswer}
    (hw : World.run before = .ok w) (r : op.run w = .ok (ans, w1)) (e : w1.runFrom more = .ok w2) :
    w2.strs.Ok := by
  apply World.run_ok (ops := before ++ op :: more)
  unfold World.run at hw ⊢
  rw [runFrom_append, hw]
  show w.runFrom (op :: more) = _
  rw [World.runFrom, r]
  exact e

theorem handed {more : List JOp} {w w1 w2 : World} {j k : Nat} {columns module_ : Bool}
    (r : (JOp.sourceAndMap j columns module_).run w = .ok (.pair k, w1))
    (e : w1.runFrom more = .ok w2) (hn : columns = true ∨ ∀ l, .set k (.names l) ∉ more) :
    ∃ e2, w2.maps[k]? = some e2 ∧ e2.Plain columns w2.strs := by
  simp only [JOp.run] at r
  obtain ⟨wm, h1, h2⟩ := World.emit_plain r
  refine (Plain.lasting columns).runFrom h1 (Plain.new h2) (fun _ t e h => ?_) (fun a ha t e h => ?_) e
  · exact .inr (.inl rfl)
  · refine Plain.set h (hn.imp_right fun hn => ?_)
    intro hf
    cases a <;> first | exact absurd ha (hn _) | cases hf

theorem World.giveData_ok {w : World} (h : w.strs.Ok) (ss cs ns : List JVal) (m : Str) :
    (w.giveData ss cs ns m).2.strs.Ok :=
  (World.internAll_values (World.internAllNew_values (World.internAll_values h).1).1).1

theorem World.give_ok {w w' : World} {a : MapArg} {hd : SmHolder} (h : w.strs.Ok)
    (e : w.give a = .ok (hd, w')) : w'.strs.Ok := by
  cases a with
  | plain ss cs ns m =>
    simp only [World.give, Except.ok.injEq] at e
    have := World.giveData_ok h ss cs ns m
    rw [e] at this; exact this
  | emitted k =>
    simp only [World.give] at e
    split at e
    · cases e
    · split at e
      · cases e; exact h
      · simp only [Except.bind_ok_iff, Except.map_ok_iff] at e
        obtain ⟨a, ha, b, hb, c', hc, d, hd', e⟩ := e
        have := World.giveData_ok (w := { w with maps := w.maps.set k d.2 }) h a.1 (b.1.getD []) d.1 c'.1
        rw [e] at this; exact this

theorem World.newSms_steps {w w' : World} {v name : Str} {map : MapArg} {original : Option Str}
    {inner : Option MapArg} (g : w.newSms v name map original inner = .ok w') :
    ∃ (vi ni : Int) (p : SmHolder × World) (oi : Option Int) (w5 : World) (q : Option SmHolder × World),
      ((w.internNew (some v)).2.intern (some name)).2.give map = .ok p ∧ p.2.Same w5 ∧
      w5.maps = p.2.maps ∧ (p.2.strs.Ok → w5.strs.Ok) ∧ w5.giveInner inner = .ok q ∧
      w'.heap = q.2.heap ++ [.sms (Sms.create v vi ni p.1 oi q.1)] ∧ w'.strs = q.2.strs := by
  simp only [World.newSms, Except.bind_ok_iff] at g
  obtain ⟨p, g1, q, g2, g3⟩ := g
  simp only [World.create, World.call, Op.run, Except.map_ok_iff] at g3
  obtain ⟨y, g5, g6⟩ := g3
  cases g5
  cases g6
  cases ht : truthy original with
  | none =>
    rw [ht] at g2
    exact ⟨_, _, p, none, p.2, q, g1, World.Same.rfl' _, rfl, id, g2, rfl, rfl⟩
  | some x =>
    rw [ht] at g2
    exact ⟨_, _, p, some _, (p.2.internNew (some x)).2, q, g1, World.internNew_same _ _, rfl,
      fun h => h.addUnchecked _, g2, rfl, rfl⟩

/-- C55. A map is handed out, anything may happen to it, its properties read as they read: the object
made from it gets just that. Names are not assigned to maps without columns. -/
theorem C55_given_partial (before more : List JOp) (w w1 w2 w3 : World) (j k : Nat)
    (columns module_ : Bool) (ss : List JVal) (cv nv : JFieldVal) (m v name : Str)
    (original : Option Str) (inner : Option MapArg) (ans : JAnswer) (hw : World.run before = .ok w)
    (r : (JOp.sourceAndMap j columns module_).run w = .ok (.pair k, w1))
    (e : w1.runFrom more = .ok w2) (hn : columns = true ∨ ∀ l, .set k (.names l) ∉ more)
    (h1 : Reads w2 k .sources (.list ss)) (h2 : Reads w2 k .contents cv)
    (h3 : Reads w2 k .mappings (.text m)) (h4 : Reads w2 k .names nv)
    (g : (JOp.newSms v name (.emitted k) original inner).run w2 = .ok (ans, w3)) :
    ∃ s, w3.heap = w2.heap ++ [.sms s] ∧ s.value = v ∧
      Denotes w3.strs s.map ss (Spec.JFieldVal.entries cv) (Spec.JFieldVal.entries nv) m := by
  obtain ⟨e2, hk, hp⟩ := handed r e hn
  have ok2 := handed_ok hw r e
  simp only [JOp.run, Except.map_ok_iff] at g
  obtain ⟨w4, g, g4⟩ := g
  cases g4
  obtain ⟨vi, ni, p, oi, w5, q, g1, same5, maps5, ok5, g2, hheap, hstrs⟩ := World.newSms_steps g
  have s1 := w2.internNew_same (some v)
  have s2 := (w2.internNew (some v)).2.intern_same (some name)
  have grow := (s1.trans s2).strs
  have key := World.give_denotes (w := ((w2.internNew (some v)).2.intern (some name)).2)
    ((ok2.addUnchecked _).add _) hk ((Plain.lasting _).mono grow hp)
    ((Would.lasting _ _).mono grow (reads_would h1 hk))
    ((Would.lasting _ _).mono grow (reads_would h2 hk))
    ((Would.lasting _ _).mono grow (reads_would h3 hk))
    ((Would.lasting _ _).mono grow (reads_would h4 hk)) g1
  have s3 := World.give_same g1
  have s4 := same5.trans (World.giveInner_same g2)
  refine ⟨Sms.create v vi ni p.1 oi q.1, ?_, rfl, ?_⟩
  · rw [hheap, s4.heap, s3.heap]; rfl
  · obtain ⟨d, k0, k1, k2, k3, k4⟩ := key
    rw [hstrs]
    exact ⟨d, k0, StrTable.values_mono s4.strs k1, StrTable.values_mono s4.strs k2,
      StrTable.values_mono s4.strs k3, k4⟩

/-- C55 for inner maps. -/
theorem C55_inner_partial (before more : List JOp) (w w1 w2 w3 : World) (j k : Nat)
    (columns module_ : Bool) (ss : List JVal) (cv nv : JFieldVal) (m v name : Str)
    (original : Option Str) (map : MapArg) (ans : JAnswer) (hw : World.run before = .ok w)
    (r : (JOp.sourceAndMap j columns module_).run w = .ok (.pair k, w1))
    (e : w1.runFrom more = .ok w2) (hn : columns = true ∨ ∀ l, .set k (.names l) ∉ more)
    (h1 : Reads w2 k .sources (.list ss)) (h2 : Reads w2 k .contents cv)
    (h3 : Reads w2 k .mappings (.text m)) (h4 : Reads w2 k .names nv)
    (g : (JOp.newSms v name map original (some (.emitted k))).run w2 = .ok (ans, w3)) :
    ∃ s hd, w3.heap = w2.heap ++ [.sms s] ∧ s.value = v ∧ s.inner = some hd ∧
      Denotes w3.strs hd ss (Spec.JFieldVal.entries cv) (Spec.JFieldVal.entries nv) m := by
  obtain ⟨e2, hk, hp⟩ := handed r e hn
  have ok2 := handed_ok hw r e
  simp only [JOp.run, Except.map_ok_iff] at g
  obtain ⟨w4, g, g4⟩ := g
  cases g4
  obtain ⟨vi, ni, p, oi, w5, q, g1, same5, maps5, ok5, g2, hheap, hstrs⟩ := World.newSms_steps g
  have s1 := w2.internNew_same (some v)
  have s2 := (w2.internNew (some v)).2.intern_same (some name)
  have grow := (s1.trans s2).strs
  -- all that matters lasts while the map itself is given
  have L : Lasting (fun t e => e.Plain columns t ∧ e.Would .sources (.list ss) t ∧
      e.Would .contents cv t ∧ e.Would .mappings (.text m) t ∧ e.Would .names nv t) :=
    ⟨fun g h => ⟨(Plain.lasting _).mono g h.1, (Would.lasting _ _).mono g h.2.1,
        (Would.lasting _ _).mono g h.2.2.1, (Would.lasting _ _).mono g h.2.2.2.1,
        (Would.lasting _ _).mono g h.2.2.2.2⟩,
     fun h g => ⟨(Plain.lasting _).get h.1 g, (Would.lasting _ _).get h.2.1 g,
        (Would.lasting _ _).get h.2.2.1 g, (Would.lasting _ _).get h.2.2.2.1 g,
        (Would.lasting _ _).get h.2.2.2.2 g⟩⟩
  obtain ⟨e3, hk3, hp3⟩ := L.give (w := ((w2.internNew (some v)).2.intern (some name)).2) hk
    (L.mono grow ⟨hp, reads_would h1 hk, reads_would h2 hk, reads_would h3 hk, reads_would h4 hk⟩)
    (fun _ t e h => ⟨.inr (.inl rfl), Would.move h.2.1, Would.move h.2.2.1, Would.move h.2.2.2.1,
      Would.move h.2.2.2.2⟩) g1
  have ok3 : p.2.strs.Ok := World.give_ok ((ok2.addUnchecked _).add _) g1
  have s3 := World.give_same g1
  have s4 := World.giveInner_same g2
  simp only [World.giveInner, Except.map_ok_iff] at g2
  obtain ⟨q', g2, g2'⟩ := g2
  cases g2'
  have hp5 := L.mono same5.strs hp3
  have key := World.give_denotes (ok5 ok3) (by rw [maps5]; exact hk3) hp5.1 hp5.2.1 hp5.2.2.1 hp5.2.2.2.1
    hp5.2.2.2.2 g2
  refine ⟨Sms.create v vi ni p.1 oi (some q'.1), q'.1, ?_, rfl, rfl, ?_⟩
  · rw [hheap, s4.heap, same5.heap, s3.heap]; rfl
  · rw [hstrs]; exact key

/-! ## Names assigned to a map without columns -/

/-- Names assigned to a map without columns are read, but the object made from the map has none; the
same with a map with columns works. -/
theorem C55_not_general : ∃ (columns : Bool → List JOp),
    (∀ c, columns c = [.newOriginal "a b\n".toList "o.js".toList, .sourceAndMap 0 c true,
      .set 0 (.names [some "n".toList]), .newSms "x".toList "y".toList (.emitted 0) none none]) ∧
    (∀ c, ((World.run ((columns c).take 3)).bind fun w => ((JOp.get 0 .names).run w).map Prod.fst) =
      .ok (.field (.list [some "n".toList]))) ∧
    (∀ c, ((World.run (columns c)).toOption.bind fun w => w.heap.getLast?.bind fun o =>
      match o with
      | .sms s => s.map.data.map fun d => (w.strs.values d.sources, w.strs.values d.names)
      | _ => none) = some (some [some "o.js".toList], some (if c then [some "n".toList] else []))) :=
  ⟨fun c => [.newOriginal "a b\n".toList "o.js".toList, .sourceAndMap 0 c true,
      .set 0 (.names [some "n".toList]), .newSms "x".toList "y".toList (.emitted 0) none none],
    fun _ => rfl, fun c => by cases c <;> decide +kernel, fun c => by cases c <;> decide +kernel⟩

/-! Non-trivial cases: a map whose sources were assigned, and one that was only read. -/

/-- A map is handed out and read. -/
def c55Read : List JOp :=
  [.newOriginal "a b\n".toList "o.js".toList, .sourceAndMap 0 true true, .get 0 .mappings]

/-- Its sources are assigned. -/
def c55Set : List JOp := c55Read ++ [.set 0 (.sources [some "p.js".toList])]

/-- A `SourceMapSource` is made from it. -/
def c55Give : JOp := .newSms "x".toList "y".toList (.emitted 0) none none

/-- The sources and contents of the map of the last object. -/
def lastMap (w : World) : Option (Option (List JVal) × Option (List JVal)) :=
  w.heap.getLast?.bind fun o =>
    match o with
    | .sms s => s.map.data.map fun d => (w.strs.values d.sources, w.strs.values d.contents)
    | _ => none

example : ((World.run c55Read).bind fun w => ((JOp.get 0 .sources).run w).map Prod.fst) =
    .ok (.field (.list [some "o.js".toList])) := by decide +kernel
example : ((World.run (c55Read ++ [c55Give])).toOption.bind lastMap) =
    some (some [some "o.js".toList], some [some "a b\n".toList]) := by decide +kernel
example : ((World.run c55Set).bind fun w => ((JOp.get 0 .sources).run w).map Prod.fst) =
    .ok (.field (.list [some "p.js".toList])) := by decide +kernel
example : ((World.run (c55Set ++ [c55Give])).toOption.bind lastMap) =
    some (some [some "p.js".toList], some [some "a b\n".toList]) := by decide +kernel

end WS
