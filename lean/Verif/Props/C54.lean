import Verif.Proofs.JsPaired
/-!
# C54: what the properties of an emitted pair say

Claim: a property of a pair handed out by `sourceAndMap()` reads as the corresponding part of what the
wasm object computed for the object, columns and module asked for, indices replaced by the strings
they stand for, until it is assigned; afterwards it reads as assigned.
-/

namespace WS
open Spec

/-- The property reads as `v`. -/
def Spec.Reads (w : World) (k : Nat) (f : JField) (v : JFieldVal) : Prop :=
  ∃ w', (JOp.get k f).run w = .ok (.field v, w')

/-- What a property of the pair says of a computed result, with the strings of the table. `names` is a
property of maps with columns only; no contents read as `undefined`. -/
def Spec.Displays (t : StrTable JVal) (columns : Bool) (s : Str) (m : SourceMap) : JField → JFieldVal → Prop
  | .source, v => v = .text s
  | .sources, v => ∃ l, t.values m.sources = some l ∧ v = .list l
  | .contents, v => ∃ l, t.values m.sourcesContent = some l ∧ v = if l = [] then .undefined else .list l
  | .mappings, v => v = .text m.mappings
  | .names, v => if columns then ∃ l, t.values m.names = some l ∧ v = .list l else v = .undefined

/-- How an assigned value reads. -/
def Spec.JAssign.reads : JAssign → JFieldVal
  | .source s | .mappings s => .text s
  | .sources l | .names l => .list l
  | .contents l => if l = [] then .undefined else .list l

theorem Displays.mono {t t' : StrTable JVal} (g : ∃ r, t'.array = t.array ++ r) {c : Bool} {s : Str}
    {m : SourceMap} {f : JField} {v : JFieldVal} (h : Displays t c s m f v) : Displays t' c s m f v := by
  cases f with
  | source => exact h
  | mappings => exact h
  | sources =>
    obtain ⟨l, h1, h2⟩ := h
    exact ⟨l, StrTable.values_mono g h1, h2⟩
  | contents =>
    obtain ⟨l, h1, h2⟩ := h
    exact ⟨l, StrTable.values_mono g h1, h2⟩
  | names =>
    simp only [Displays] at h ⊢
    split
    · rename_i hc
      rw [if_pos hc] at h
      obtain ⟨l, h1, h2⟩ := h
      exact ⟨l, StrTable.values_mono g h1, h2⟩
    · rename_i hc; rwa [if_neg hc] at h

/-- The variable of the property is not set. -/
def Emitted.Unread (e : Emitted) : JField → Prop
  | .source => e.source = none
  | .sources => e.sources = none
  | .contents => e.contents = none
  | .mappings => e.mappings = none
  | .names => e.hasNames = true ∧ e.names = none

/-- The property is not read yet, or was read as it should. -/
def Emitted.Tells (c : Bool) (s : Str) (m : SourceMap) (f : JField) (t : StrTable JVal)
    (e : Emitted) : Prop :=
  (e.Unread f ∧ (f = .names → e.hasNames = c) ∧ e.Yields m ∧ ∃ wm, e.wasm = some wm ∧ wm.s = s) ∨
    ∃ v, e.Keeps f v ∧ Displays t c s m f v

theorem Unread.not_keeps {e : Emitted} {f : JField} {v : JFieldVal} (h : e.Unread f)
    (k : e.Keeps f v) : False := by
  cases f <;> simp_all [Emitted.Unread, Emitted.Keeps]

theorem Yields.unique {e : Emitted} {m m' : SourceMap} (h : e.Yields m) (h' : e.Yields m') : m = m' := by
  obtain ⟨a, b, h1, h2⟩ := h
  obtain ⟨c, d, h3, h4⟩ := h'
  rw [h1] at h3; cases h3
  rw [h2] at h4; cases h4; rfl

theorem Fresh.displays {t : StrTable JVal} {e : Emitted} {f : JField} {v : JFieldVal} {s : Str}
    {m : SourceMap} {c : Bool} (h : e.Fresh t f v) (hc : f = .names → e.hasNames = c) (hy : e.Yields m)
    (hs : ∃ wm, e.wasm = some wm ∧ wm.s = s) : Displays t c s m f v := by
  cases f with
  | source =>
    obtain ⟨-, wm, h1, rfl⟩ := h
    obtain ⟨wm', h2, rfl⟩ := hs
    rw [h1] at h2; cases h2; rfl
  | sources =>
    obtain ⟨-, m', l, h1, h2, rfl⟩ := h
    cases Yields.unique hy h1
    exact ⟨_, by rw [StrTable.values, h2]; rfl, rfl⟩
  | contents =>
    obtain ⟨-, m', l, h1, h2, rfl⟩ := h
    cases Yields.unique hy h1
    exact ⟨_, by rw [StrTable.values, h2]; rfl, by simp⟩
  | mappings =>
    obtain ⟨-, m', h1, rfl⟩ := h
    cases Yields.unique hy h1
    rfl
  | names =>
    obtain ⟨h0, -, m', l, h1, h2, rfl⟩ := h
    cases Yields.unique hy h1
    have hc := hc rfl
    rw [h0] at hc; subst hc
    exact ⟨_, by rw [StrTable.values, h2]; rfl, rfl⟩

theorem Tells.of_get {c : Bool} {s : Str} {m : SourceMap} {f : JField} {w : World} {e e' : Emitted}
    {v : JFieldVal} (h : e.Tells c s m f w.strs) (hg : e.get w f = .ok (v, e')) :
    Displays w.strs c s m f v := by
  rcases h with ⟨h1, h2, h3, h4⟩ | ⟨u, h1, h2⟩
  · rcases Emitted.get_cases hg with h5 | h5
    · exact (Unread.not_keeps h1 h5).elim
    · exact Fresh.displays h5 h2 h3 h4
  · rw [h1.get w] at hg; cases hg; exact h2

theorem Unread.other {w : World} {e e' : Emitted} {f g : JField} {u : JFieldVal} (h : e.Unread f)
    (hg : e.get w g = .ok (u, e')) (hfg : g ≠ f) : e'.Unread f := by
  obtain ⟨-, hn, -, h1, h2, h3, h4, h5⟩ := Emitted.get_changes hg
  cases f <;> simp only [Emitted.Unread] at h ⊢
  · rw [h1.resolve_left hfg]; exact h
  · rw [h2.resolve_left hfg]; exact h
  · rw [h3.resolve_left hfg]; exact h
  · rw [h4.resolve_left hfg]; exact h
  · rw [hn, h5.resolve_left hfg]; exact h

theorem Tells.lasting (c : Bool) (s : Str) (m : SourceMap) (f : JField) :
    Lasting (fun t e => e.Tells c s m f t) := by
  refine ⟨fun g h => h.imp_right fun ⟨v, h1, h2⟩ => ⟨v, h1, Displays.mono g h2⟩, ?_⟩
  intro w e e' g u h hg
  by_cases hfg : g = f
  · subst hfg
    exact .inr ⟨u, Emitted.get_keeps hg, Tells.of_get h hg⟩
  rcases h with ⟨h1, h2, h3, wm, h4, h5⟩ | ⟨v, h1, h2⟩
  · refine .inl ⟨Unread.other h1 hg hfg, ?_, h3.get hg, ?_⟩
    · rw [(Emitted.get_changes hg).2.1]; exact h2
    · rcases (Emitted.get_changes hg).1 with h6 | ⟨wm2, m2, wm3, h6, h7, h8⟩
      · exact ⟨wm, by rw [h6]; exact h4, h5⟩
      · rw [h4] at h6; cases h6
        exact ⟨wm3, h8, by rw [(WasmMap.getMap_again h7).2]; exact h5⟩
  · exact .inr ⟨v, h1.other hg, h2⟩

theorem Unread.set {e : Emitted} {f : JField} (h : e.Unread f) {a : JAssign} (ha : a.field ≠ f) :
    (e.set a).Unread f := by
  cases a <;> cases f <;> first | exact absurd rfl ha |
    (simp only [Emitted.set]; first | exact h | (split <;> exact h))

/-- A new pair. -/
theorem Tells.new {c : Bool} {wm : WasmMap} {m : SourceMap} {f : JField} {t : StrTable JVal}
    (h : ∃ wm', wm.getMap = .ok (m, wm')) : (Emitted.new wm c).Tells c wm.s m f t := by
  obtain ⟨wm', h⟩ := h
  by_cases hf : f = .names ∧ c = false
  · obtain ⟨rfl, rfl⟩ := hf
    exact .inr ⟨.undefined, .inr ⟨rfl, rfl⟩, rfl⟩
  · refine .inl ⟨?_, fun _ => rfl, ⟨wm, wm', rfl, h⟩, wm, rfl, rfl⟩
    cases f <;> simp_all [Emitted.Unread, Emitted.new]

/-- The pair a statement hands out. -/
theorem World.emit_new {w w1 : World} {j k : Nat} {columns module_ : Bool}
    (r : w.emit j columns module_ = .ok (.pair k, w1)) : ∃ o, w.objs[j]? = some o ∧
      ∃ wm, w1.maps[k]? = some (Emitted.new wm columns) ∧
        ∀ q h', apiSourceAndMap w.heap o.ptr columns module_ none = .ok (q, h') →
          wm.s = q.source ∧ ∃ wm', wm.getMap = .ok (q.map, wm') := by
  unfold World.emit at r
  split at r
  · cases r
  rename_i o ho
  refine ⟨o, ho, ?_⟩
  split at r
  · cases r
  split at r
  · rename_i hc
    subst hc
    simp only [Except.bind_ok_iff] at r
    obtain ⟨⟨a, w2⟩, h1, h2⟩ := r
    dsimp only at h2
    split at h2
    · rename_i n
      cases h2
      refine ⟨_, List.getElem?_concat_length, ?_⟩
      intro q h' hq
      simp only [World.call, Op.run] at h1
      rw [apiSourceAndMap, if_pos rfl] at hq
      cases hn : apiNode w.heap o.ptr true module_ with
      | error e => rw [hn] at hq; cases hq
      | ok p =>
        rw [hn] at hq h1
        simp only [Except.map] at h1
        cases h1
        dsimp only at hq
        unfold SmNode.toStringWithSourceMap at hq
        dsimp only at hq
        cases hg : (p.1.walk (WalkCtx.new none none)).map.toSourceMap with
        | error e => rw [hg] at hq; cases hq
        | ok g =>
          rw [hg] at hq
          cases hq
          refine ⟨rfl, ?_⟩
          simp only [WasmMap.getMap, SmNode.toStringWithGenerator, hg]
          exact ⟨_, rfl⟩
    · cases h2
  · rename_i hc
    have hc : columns = false := by simpa using hc
    subst hc
    simp only [Except.bind_ok_iff] at r
    obtain ⟨⟨a, w2⟩, h1, h2⟩ := r
    dsimp only at h2
    split at h2
    · rename_i n
      cases h2
      refine ⟨_, List.getElem?_concat_length, ?_⟩
      intro q h' hq
      simp only [World.call, Op.run] at h1
      rw [apiSourceAndMap, if_neg (by simp)] at hq
      cases hn : apiListMap w.heap o.ptr false module_ with
      | error e => rw [hn] at hq; cases hq
      | ok p =>
        rw [hn] at hq h1
        simp only [Except.map] at h1
        cases h1
        cases hq
        exact ⟨rfl, _, rfl⟩
    · cases h2

/-- C54, before the property is assigned. `q` is what the wasm object computes when the pair is
handed out; the map is not given to a `SourceMapSource` before the property is read (C48 says what
happens then). -/
theorem C54_emitted (w w1 w2 : World) (j k : Nat) (columns module_ : Bool) (more : List JOp)
    (f : JField) (v : JFieldVal) (o : JObj) (q : StringWithSourceMap) (h : Heap)
    (r : (JOp.sourceAndMap j columns module_).run w = .ok (.pair k, w1))
    (ho : w.objs[j]? = some o) (hq : apiSourceAndMap w.heap o.ptr columns module_ none = .ok (q, h))
    (e : w1.runFrom more = .ok w2) (hg : ∀ op ∈ more, ¬ op.gives k)
    (hs : ∀ a, .set k a ∈ more → a.field ≠ f) (hv : Reads w2 k f v) :
    Displays w2.strs columns q.source q.map f v := by
  simp only [JOp.run] at r
  obtain ⟨o', ho', wm, h1, h2⟩ := World.emit_new r
  rw [ho] at ho'; cases ho'
  obtain ⟨h3, h4⟩ := h2 q h hq
  obtain ⟨e2, h5, h6⟩ := (Tells.lasting columns wm.s q.map f).runFrom h1 (Tells.new h4)
    (fun ⟨op, hop, hgo⟩ => absurd hgo (hg op hop)) (fun a ha t x hx => by
      have hf := hs a ha
      rcases hx with ⟨k1, k2, k3, k4⟩ | ⟨u, k1, k2⟩
      · refine .inl ⟨Unread.set k1 hf, ?_, ?_, ?_⟩
        · intro hn
          cases a <;> first | exact k2 hn | exact absurd hn.symm hf
        · cases a <;> first | exact k3 | (simp only [Emitted.set]; split <;> exact k3)
        · cases a <;> first | exact k4 | (simp only [Emitted.set]; split <;> exact k4)
      · exact .inr ⟨u, Keeps.set k1 hf, k2⟩) e
  obtain ⟨w3, hv⟩ := hv
  simp only [JOp.run, h5, Except.map_ok_iff] at hv
  obtain ⟨p, h7, h8⟩ := hv
  cases h8
  rw [← h3]
  exact Tells.of_get h6 h7

/-- C54, from an assignment on: whatever happens but another assignment, also when the map is given
away. -/
theorem C54_assigned (w w1 w2 : World) (k : Nat) (a : JAssign) (more : List JOp) (ans : JAnswer)
    (r : (JOp.set k a).run w = .ok (ans, w1)) (e : w1.runFrom more = .ok w2)
    (hs : ∀ b, .set k b ∈ more → b.field ≠ a.field) : Reads w2 k a.field (Spec.JAssign.reads a) := by
  simp only [JOp.run] at r
  split at r
  · cases r
  rename_i e0 he0
  cases r
  have hk : (e0.set a).Keeps a.field (Spec.JAssign.reads a) := by
    cases a with
    | source s => exact ⟨s, rfl, rfl⟩
    | sources s => exact ⟨s, rfl, rfl⟩
    | mappings s => exact ⟨s, rfl, rfl⟩
    | contents l =>
      cases l with
      | nil => exact .inr ⟨.inr rfl, rfl⟩
      | cons x l => exact .inl ⟨x, l, rfl, rfl⟩
    | names l =>
      refine .inl ⟨?_, l, ?_, rfl⟩ <;> (simp only [Emitted.set]; split <;> first | rfl | assumption)
  obtain ⟨e2, h3, h4⟩ := (Keeps.lasting a.field (Spec.JAssign.reads a)).runFrom
    (w := { w with maps := w.maps.set k (e0.set a) }) (k := k)
    (List.getElem?_set_self (List.getElem?_eq_some_iff.1 he0).1) hk
    (fun _ _ _ h => Keeps.move h) (fun b hb _ _ h => Keeps.set h (hs b hb)) e
  exact ⟨_, by simp only [JOp.run, h3, h4.get w2, Except.map]; rfl⟩

/-! Non-trivial case: a concatenation, read later, its mappings assigned. -/

/-- Before the pair is handed out. -/
def c54Before : List JOp :=
  [.newOriginal "a b\n".toList "o.js".toList, .newConcat [.str "x ".toList, .obj 0]]

/-- After it. -/
def c54More : List JOp :=
  [.newOriginal "c\n".toList "p.js".toList, .set 0 (.mappings "AAAA".toList), .add 1 (.obj 2),
   .get 0 .contents]

example : ((World.run c54Before).bind fun w => ((JOp.sourceAndMap 1 true true).run w).bind fun p =>
      (p.2.runFrom c54More).bind fun w2 => ((JOp.get 0 .source).run w2).bind fun a =>
      ((JOp.get 0 .sources).run w2).bind fun b => ((JOp.get 0 .mappings).run w2).map fun c =>
        (p.1, a.1, b.1, c.1)) =
    .ok (.pair 0, .field (.text "x a b\n".toList), .field (.list [some "o.js".toList]),
      .field (.text "AAAA".toList)) := by decide +kernel
example : ((World.run c54Before).toOption.bind fun w => w.objs[1]?.bind fun o =>
      (apiSourceAndMap w.heap o.ptr true true none).toOption.map fun q =>
        (q.1.source, w.strs.values q.1.map.sources)) =
    some ("x a b\n".toList, some [some "o.js".toList]) := by decide +kernel
example : (∀ a, .set 0 a ∈ c54More → a.field ≠ .sources ∧ a.field ≠ .source) ∧
    ∀ op ∈ c54More, ¬ op.gives 0 := by
  refine ⟨fun a h => ?_, fun op h => ?_⟩
  · simp [c54More] at h
    subst h; decide
  · simp only [c54More, List.mem_cons, List.not_mem_nil, or_false] at h
    rcases h with rfl | rfl | rfl | rfl <;> exact id

end WS
