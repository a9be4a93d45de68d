import Verif.Props.C60Lines
import Verif.Props.C75Given
/-! # C60 with `columns: false` for emitted maps given back -/

namespace WS
open Spec

theorem resolveAll_lines {S N : List Int} : ∀ {gs : List Seg} {ps : List Point}, resolveAll S N gs = some ps →
    (∀ g ∈ gs, g.LineFits) → ∀ p ∈ ps, ∀ o, p.origin = some o → o.line < 4294967296
  | [], ps, h, _ => by cases h; exact fun p hp => by cases hp
  | g :: gs, ps, h, hf => by
    rw [resolveAll] at h
    split at h
    · rename_i p ps' hp hps
      cases h
      intro q hq o ho
      rcases List.mem_cons.1 hq with rfl | hq
      · obtain ⟨l, c, x⟩ := g
        cases x with
        | none =>
          obtain ⟨c1, e1, rfl⟩ := resolve_none_iff.1 hp
          cases ho
        | some x =>
          obtain ⟨si, ol, oc, ni⟩ := x
          obtain ⟨c1, l1, o1, a1, x1, e1, e2, _, _, _, rfl⟩ := resolve_orig_iff.1 hp
          cases ho
          have := hf _ (List.mem_cons_self ..) _ rfl
          have := nat?_iff.1 e2
          dsimp only at *
          omega
      · exact resolveAll_lines hps (fun g hg => hf g (by simp [hg])) q hq o ho
    · cases h

/-- A map that holds readable mappings. -/
theorem StrTable.Holds.lineSafe {t : StrTable JVal} {hd : SmHolder} {ss cs ns : List JVal} {mp : Str} {y : List Seg}
    (h : t.Holds hd ss cs ns mp) (hd' : decode mp = some y) (hy : ∀ s ∈ y, s.LineFits) {v : Str} {vi i : Int}
    (hi : i ≠ -1) (o : Option Int) : (Sms.create v vi i hd o none).LineSafe := by
  have hpos := h.positive
  obtain ⟨d, h1, -, rfl, hS, -⟩ := h
  have hn : -1 ∉ d.sources := fun hc => absurd (hS.positive _ hc) (by decide)
  refine ⟨hi, fun d1 e => ?_, fun e => ⟨rfl, fun g hg => ?_⟩⟩
  · replace e : hd.data = some d1 := e
    rcases h1 with rfl | ⟨g, h2, h3 | h3, -⟩
    · cases e; exact ⟨hn, y, hd', hy⟩
    · rw [h3] at e; cases e
    · rw [h3] at e; cases e; exact ⟨hn, y, hd', hy⟩
  · replace e : hd.data = none := e
    replace hg : hd.gen = some g := hg
    rcases h1 with rfl | ⟨g, h2, h3, ok, ht, -, m, g', hm, rfl⟩
    · cases e
    · rw [h2] at hg; cases hg
      have hle : g.mappings.sort.list.Pairwise (fun a b => Mapping.le a b = true) := by
        rw [MappingList.sort_list ht]; exact sortBy_sorted _
      obtain ⟨m', k1, k2, -, -, k3⟩ := Generator.toSourceMap_ok ok hle
      rw [hm] at k1; cases k1
      refine ⟨by rw [← k2]; exact hn, ok, ht, fun x hx o ho => ?_⟩
      unfold mapPoints points at k3
      rw [show decode m.mappings = some y from hd'] at k3
      have hv := (ok.valid x hx)
      have hx' : x ∈ g.mappings.sort.list := by
        rw [MappingList.sort_list ht]; exact (sortBy_perm _).mem_iff.2 hx
      have := resolveAll_lines k3 hy x.point (List.mem_map_of_mem hx')
      cases hs : x.source with
      | none => have := hv.2; rw [hs] at this; simp [ho] at this
      | some s =>
        exact this ⟨s, o.1, o.2, x.name⟩ (by simp [Mapping.point, hs, ho])

/-- The maps given to `SourceMapSource`s, as they read, can be read line by line. -/
theorem JOp.run_given_lines {nb : Prop} {U : Pool} {w w' : World} {op op' : JOp} {a : JAnswer} (W : w.Within U)
    (W' : w'.Within U) (hs : ∀ e ∈ w.maps, e.Sound nb w.strs) (hpos : ∀ o ∈ w.log, o.LineOk)
    (hsim : Spec.JOp.Simple op) (hl : Spec.JOp.LineMaps op') (h : SpeltOut w op op')
    (e : op.run w = .ok (a, w')) : ∀ o ∈ w'.log, o.LineOk := by
  have steps := JOp.run_steps w op
  rw [e] at steps
  obtain ⟨l, hlog, -, hof⟩ := steps
  intro x hx
  by_cases hsms : ∃ v n k o i, op = .newSms v n (.emitted k) o i
  · obtain ⟨v, n, k, o, i, rfl⟩ := hsms
    cases hsim
    obtain ⟨m', i', rfl, hm, hi⟩ := h
    simp only [JOp.run, Except.map_ok_iff] at e
    obtain ⟨_, e, h2⟩ := e; cases h2
    obtain ⟨wi, op0, k, s, hc, hn, hlab⟩ := World.newSms_label W W' hs e hm hi
    have hlog : w'.log = w.log ++ [op0] := by
      simp only [World.create, Except.map_ok_iff] at hc
      obtain ⟨⟨b, w1⟩, h1, rfl⟩ := hc
      obtain ⟨h, hr, rfl⟩ := World.call_ok h1
      show wi.log ++ [op0] = _
      rw [s.log]
    rw [hlog] at hx
    rcases List.mem_append.1 hx with hx | hx
    · exact hpos x hx
    simp only [List.mem_cons, List.not_mem_nil, or_false] at hx
    subst hx
    obtain ⟨vi, ni, hd, oi, ih, h5, h6, h7, h8, h9, -⟩ := hlab
    cases h5
    cases hi
    cases h8 rfl
    obtain ⟨ss, cs, ns, mp, y, rfl, hy, hf⟩ := hl
    have := h6.1
    exact (h7 _ _ _ _ rfl).lineSafe hy hf (by omega) oi
  · rw [hlog] at hx
    rcases List.mem_append.1 hx with hx | hx
    · exact hpos x hx
    · have ho := hof x hx
      refine .of_fit (JOp.LineMaps.fit (ops := [op]) ?_ (by simp) ho)
      intro op1 h1
      simp only [List.mem_singleton] at h1
      subst h1
      cases op1 <;> try trivial
      rename_i v n m o i
      cases m with
      | emitted k => exact absurd ⟨_, _, _, _, _, rfl⟩ hsms
      | plain ss cs ns mp =>
        obtain ⟨m', i', rfl, hm, hi⟩ := h
        cases hm
        obtain ⟨ss, cs, ns, mp, y, e, hy⟩ := hl
        cases e
        exact ⟨_, _, _, _, y, rfl, hy⟩

theorem World.runFrom_given_lines {nb : Prop} {U : Pool} : ∀ {ops : List JOp} {w w' : World} {made : List JOp},
    w.Within U → w.Lined → (∀ e ∈ w.maps, e.Sound nb w.strs) → (∀ o ∈ w.log, o.LineOk) →
    (∀ op ∈ ops, Spec.JOp.FewLines op) → (∀ op ∈ ops, ∀ f v, v ∈ op.supply f → v ∈ U f) →
    (∀ op ∈ ops, NamesOk nb op) → (∀ op ∈ ops, Spec.JOp.Simple op) → (∀ op ∈ made, Spec.JOp.LineMaps op) →
    MadeFrom w ops made → w.runFrom ops = .ok w' → ∀ o ∈ w'.log, o.LineOk
  | [], _, _, _, _, _, _, hpos, _, _, _, _, _, _, e => by cases e; exact hpos
  | op :: ops, w, w', made, W, hl, hs, hpos, hf, hU, hn, hsim, hlm, hm, e => by
    simp only [World.runFrom, Except.bind_ok_iff] at e
    obtain ⟨⟨a, w1⟩, h1, h2⟩ := e
    have W1 := JOp.run_within W (hU op (by simp))
    rw [h1] at W1
    have W1 : w1.Within U := W1
    have l1 := JOp.run_lined hl (hf op (by simp))
    rw [h1] at l1
    have l1 : w1.Lined := l1
    have hs1 := JOp.run_sound hs hl (hn op (by simp)) h1
    rw [MadeFrom] at hm
    obtain ⟨a', w1', h1', hm⟩ := hm
    rw [h1] at h1'; cases h1'
    have rest : ∀ {made2 : List JOp}, (∀ o ∈ w1.log, o.LineOk) → (∀ op ∈ made2, Spec.JOp.LineMaps op) →
        MadeFrom w1 ops made2 → ∀ o ∈ w'.log, o.LineOk :=
      fun hp1 hl2 hm2 => World.runFrom_given_lines W1 l1 hs1 hp1 (fun o ho => hf o (by simp [ho]))
        (fun o ho => hU o (by simp [ho])) (fun o ho => hn o (by simp [ho])) (fun o ho => hsim o (by simp [ho])) hl2 hm2 h2
    split at hm
    · obtain ⟨op', made2, rfl, h3, h4⟩ := hm
      exact rest (JOp.run_given_lines W W1 hs hpos (hsim op (by simp)) (hlm _ (by simp)) h3 h1)
        (fun o ho => hlm o (by simp [ho])) h4
    · rename_i hmk
      have h3 : SpeltOut w op op := by
        cases op <;> first | rfl | exact absurd rfl hmk
      have h4 : Spec.JOp.LineMaps op := by
        cases op <;> first | trivial | exact absurd rfl hmk
      exact rest (JOp.run_given_lines W W1 hs hpos (hsim op (by simp)) h4 h3 h1) hlm hm

/-- C60 for line maps when emitted maps are given back: the pair handed out by `sourceAndMap({columns: false})` of an object
is valid whenever it is read later, if the maps given, as they read then, can be read line by line.

Missing: an emitted map together with an inner map, files without name in emitted maps given. -/
theorem C60_lines_given_partial (ops more made : List JOp) (w w1 w2 : World) (j k : Nat) (m : Bool)
    (r : World.run ops = .ok w) (hf : ∀ op ∈ ops, Spec.JOp.FewLines op) (hn : NamesFit ops)
    (hsim : ∀ op ∈ ops, Spec.JOp.Simple op) (hm : MadeFrom World.empty ops made)
    (hl : ∀ op ∈ made, Spec.JOp.LineMaps op)
    (e : (JOp.sourceAndMap j false m).run w = .ok (.pair k, w1)) (e2 : w1.runFrom more = .ok w2)
    (hg : ∀ op ∈ more, ¬ op.gives k) (hset : ∀ a, .set k a ∉ more) : ValidLines w2 k := by
  refine validLines_of_fit r ?_ e e2 hg hset
  exact World.runFrom_given_lines (U := supplied ops) (w := World.empty) World.empty_within World.empty_lined
    (fun e he => by simp [World.empty] at he) (fun o ho => by simp [World.empty] at ho) hf
    (fun op ho f v hv => List.mem_flatMap.2 ⟨op, ho, hv⟩) (namesOk_of_fit hn) hsim hl hm r

theorem c66_lines : ∀ op ∈ c66Made, Spec.JOp.LineMaps op := by
  simp only [c66Made, List.forall_mem_cons, Spec.JOp.LineMaps]
  refine ⟨trivial, ⟨_, _, _, _, [⟨1, 0, some (0, 0, 0, some 0)⟩, ⟨1, 1, some (1, 2, 0, some 0)⟩], rfl,
      by decide +kernel, ?_⟩, trivial,
    ⟨_, _, _, _, [⟨2, 0, some (0, 0, 0, none)⟩, ⟨2, 2, some (0, 0, 2, none)⟩, ⟨3, 0, some (0, 1, 0, none)⟩,
      ⟨4, 0, some (1, 0, 0, some 0)⟩, ⟨4, 1, some (2, 2, 0, some 0)⟩], rfl, by decide +kernel, ?_⟩, trivial,
    ⟨_, _, _, _, [⟨1, 0, some (0, 1, 4, none)⟩, ⟨2, 0, some (0, 2, 4, none)⟩], rfl, by decide +kernel, ?_⟩,
    trivial, by simp⟩
  all_goals
    simp only [List.forall_mem_cons, Spec.Seg.LineFits]
    simp

/-- The line map of the last object, made with an emitted map and an inner emitted map given. -/
example : ((World.run (c66Program ++ [.sourceAndMap 6 false true])).toOption.map fun w =>
    [JField.source, .sources, .names, .mappings].map fun f => ((JOp.get 2 f).run w).toOption.map Prod.fst) =
    some [some (.field (.text "> x\n> a;b {\n>   c }\n> pq\n> rs\nt".toList)),
      some (.field (.list [some "a.js".toList, some "g.js".toList, some "c.js".toList])),
      some (.field .undefined),
      some (.field (.text ";AAAA;AACA;ACDA;AACA,ECAA;AACA".toList))] := by decide +kernel

end WS
