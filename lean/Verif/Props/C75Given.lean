import Verif.Props.C66
import Verif.Props.C75Least
/-!
# C75 for emitted maps given back

As C66 for C63: the maps given to `SourceMapSource`s may be maps handed out before, moved into wasm or copied
property by property. The pair is exactly the smallest one for what the statements say, with the maps spelt out.
-/

namespace WS
open Spec

/-! ## No negative indices -/

theorem StrTable.Lists.positive {t : StrTable JVal} {ids : List Int} {vs : List JVal} (h : t.Lists ids vs) :
    ∀ i ∈ ids, 0 ≤ i := by
  intro i hi
  obtain ⟨k, hk⟩ := List.getElem?_of_mem hi
  have hl := (List.getElem?_eq_some_iff.1 hk).1
  exact (h.2 k i _ hk (List.getElem?_eq_getElem (h.1 ▸ hl))).1

theorem StrTable.Holds.positive {t : StrTable JVal} {hd : SmHolder} {ss cs ns : List JVal} {mp : Str}
    (h : t.Holds hd ss cs ns mp) : hd.In posDom := by
  obtain ⟨d, h1, -, -, hS, -⟩ := h
  have hd' : d.In posDom := ⟨hS.positive, fun _ _ => trivial, fun _ _ => trivial⟩
  rcases h1 with rfl | ⟨g, h2, h3, ok, ht, -, m, g', hm, rfl⟩
  · exact ⟨fun d' e => by cases e; exact hd', fun g e => by cases e⟩
  · refine ⟨fun d' e => ?_, fun g2 e => ?_⟩
    · rcases h3 with h3 | h3
      · rw [h3] at e; cases e
      · rw [h3] at e; cases e; exact hd'
    · rw [h2] at e; cases e
      have hle : g.mappings.sort.list.Pairwise (fun a b => Mapping.le a b = true) := by
        rw [MappingList.sort_list ht]; exact sortBy_sorted _
      obtain ⟨m', k1, k2, -⟩ := Generator.toSourceMap_ok ok hle
      rw [hm] at k1; cases k1
      have hs : ∀ s ∈ g.sources.map Prod.fst, (0 : Int) ≤ s := fun s h => hd'.sources s (by
        show s ∈ m.sources
        rw [k2]; exact h)
      exact ⟨fun x hx => ⟨fun s e => hs s (ok.srcIn x hx s e), fun _ _ => trivial⟩,
        fun p hp => hs _ (List.mem_map_of_mem hp), fun _ _ => trivial, fun _ _ => trivial⟩

theorem speltMap_plain {w : World} {a b : MapArg} (h : SpeltMap w a b) : ∃ ss cs ns mp, b = .plain ss cs ns mp := by
  cases a with
  | plain ss cs ns mp => exact ⟨_, _, _, _, h⟩
  | emitted k =>
    obtain ⟨ss, cv, nv, mp, -, -, -, -, -, h⟩ := h
    exact ⟨_, _, _, _, h⟩

theorem JOp.run_given_calls {nb : Prop} {U : Pool} {w w' : World} {op op' : JOp} {a : JAnswer} (W : w.Within U)
    (W' : w'.Within U) (hs : ∀ e ∈ w.maps, e.Sound nb w.strs) (h : SpeltOut w op op') (e : op.run w = .ok (a, w')) :
    ∃ l, w'.log = w.log ++ l ∧ WS.runFrom w.heap l = .ok w'.heap ∧ ∀ o ∈ l, o.In posDom := by
  have steps := JOp.run_steps w op
  rw [e] at steps
  obtain ⟨l, hl, hrun, hof⟩ := steps
  refine ⟨l, hl, hrun, fun x hx => ?_⟩
  by_cases hsms : ∃ v n m o i, op = .newSms v n m o i
  · obtain ⟨v, n, m, o, i, rfl⟩ := hsms
    obtain ⟨m', i', rfl, hm, hi⟩ := h
    simp only [JOp.run, Except.map_ok_iff] at e
    obtain ⟨_, e, h2⟩ := e; cases h2
    obtain ⟨wi, op0, k, s, hc, hn, hlab⟩ := World.newSms_label W W' hs e hm hi
    have hlog : w'.log = w.log ++ [op0] := by
      simp only [World.create, Except.map_ok_iff] at hc
      obtain ⟨⟨b, w1⟩, h1, rfl⟩ := hc
      obtain ⟨h, hr, rfl⟩ := World.call_ok h1
      show wi.log ++ [op0] = _
      rw [s.log]
    cases List.append_cancel_left (hl.symm.trans hlog)
    cases List.mem_singleton.1 hx
    obtain ⟨vi, ni, hd, oi, ih, h5, h6, h7, h8, h9, -⟩ := hlab
    cases h5
    obtain ⟨ss, cs, ns, mp, rfl⟩ := speltMap_plain hm
    refine ⟨trivial, h6.1, (h7 _ _ _ _ rfl).positive, fun _ _ => trivial, fun y hy => ?_⟩
    cases i with
    | none => cases hi; rw [h8 rfl] at hy; cases hy
    | some i =>
      obtain ⟨b, rfl, hb⟩ := hi
      obtain ⟨ss', cs', ns', mp', rfl⟩ := speltMap_plain hb
      obtain ⟨y', e1, e2⟩ := h9 _ _ _ _ rfl
      rw [hy] at e1; cases e1
      exact e2.positive
  · have ho := hof x hx
    cases x <;> try trivial
    · exact ⟨ho.1, trivial⟩
    · exact ⟨ho.1, trivial⟩
    · obtain ⟨-, n, m, o', i, rfl, -⟩ := ho
      exact absurd ⟨_, _, _, _, _, rfl⟩ hsms

theorem JOp.run_given_positive {nb : Prop} {U : Pool} {w w' : World} {op op' : JOp} {a : JAnswer} (W : w.Within U)
    (W' : w'.Within U) (hs : ∀ e ∈ w.maps, e.Sound nb w.strs) (hpos : ∀ o ∈ w.log, o.In posDom)
    (h : SpeltOut w op op') (e : op.run w = .ok (a, w')) : ∀ o ∈ w'.log, o.In posDom := by
  obtain ⟨l, hl, -, hall⟩ := JOp.run_given_calls W W' hs h e
  intro x hx
  rw [hl] at hx
  rcases List.mem_append.1 hx with hx | hx
  · exact hpos x hx
  · exact hall x hx

theorem World.runFrom_given_positive {nb : Prop} {U : Pool} : ∀ {ops : List JOp} {w w' : World} {made : List JOp},
    w.Within U → w.Lined → (∀ e ∈ w.maps, e.Sound nb w.strs) → (∀ o ∈ w.log, o.In posDom) →
    (∀ op ∈ ops, Spec.JOp.FewLines op) → (∀ op ∈ ops, ∀ f v, v ∈ op.supply f → v ∈ U f) →
    (∀ op ∈ ops, NamesOk nb op) → MadeFrom w ops made → w.runFrom ops = .ok w' → ∀ o ∈ w'.log, o.In posDom
  | [], _, _, _, _, _, _, hpos, _, _, _, _, e => by cases e; exact hpos
  | op :: ops, w, w', made, W, hl, hs, hpos, hf, hU, hn, hm, e => by
    simp only [World.runFrom, Except.bind_ok_iff] at e
    obtain ⟨⟨a, w1⟩, h1, h2⟩ := e
    have W1 := JOp.run_within W (hU op (by simp))
    rw [h1] at W1
    have W1 : w1.Within U := W1
    have l1 := JOp.run_lined hl (hf op (by simp))
    rw [h1] at l1
    have l1 : w1.Lined := l1
    have hs1 := JOp.run_sound hs hl (hn op (by simp)) h1
    rw [MadeFrom] at hm
    obtain ⟨a', w1', h1', hm⟩ := hm
    rw [h1] at h1'; cases h1'
    have rest : ∀ {made2 : List JOp}, (∀ o ∈ w1.log, o.In posDom) → MadeFrom w1 ops made2 →
        ∀ o ∈ w'.log, o.In posDom :=
      fun hp1 hm2 => World.runFrom_given_positive W1 l1 hs1 hp1 (fun o ho => hf o (by simp [ho]))
        (fun o ho => hU o (by simp [ho])) (fun o ho => hn o (by simp [ho])) hm2 h2
    split at hm
    · obtain ⟨op', made2, rfl, h3, h4⟩ := hm
      exact rest (JOp.run_given_positive W W1 hs hpos h3 h1) h4
    · rename_i hmk
      have h3 : SpeltOut w op op := by
        cases op <;> first | rfl | exact absurd rfl hmk
      exact rest (JOp.run_given_positive W W1 hs hpos h3 h1) hm

theorem World.run_given_positive {ops made : List JOp} {w : World} (hf : ∀ op ∈ ops, Spec.JOp.FewLines op)
    (hn : NamesFit ops) (hm : MadeFrom World.empty ops made) (e : World.run ops = .ok w) : Heap.In posDom w.heap := by
  have := World.runFrom_given_positive (U := supplied ops) (w := World.empty) World.empty_within World.empty_lined
    (fun e he => by simp [World.empty] at he) (fun o ho => by simp [World.empty] at ho) hf
    (fun op ho f v hv => List.mem_flatMap.2 ⟨op, ho, hv⟩) (namesOk_of_fit hn) hm e
  exact Heap.In.runFrom (h := []) (fun i o h => by simp at h) this (World.run_log e).1

/-! ## C75 -/

/-- C75 for programs that give emitted maps, under the conditions of C66. -/
theorem C75_given_partial (ops more made : List JOp) (w w1 w2 : World) (j k : Nat) (module_ : Bool)
    (r : World.run ops = .ok w) (hp : ∀ op ∈ ops, op.Proper) (hf : ∀ op ∈ ops, Spec.JOp.FewLines op)
    (hn : NamesFit ops) (hsim : ∀ op ∈ ops, Spec.JOp.Simple op) (hm : MadeFrom World.empty ops made)
    (hr : ∀ op ∈ made, Spec.JOp.Exact op) (hu : Unreplaced (jthings ops) false (.obj j))
    (e : (JOp.sourceAndMap j true module_).run w = .ok (.pair k, w1)) (e2 : w1.runFrom more = .ok w2)
    (hg : ∀ op ∈ more, ¬ op.gives k) (hset : ∀ a, .set k a ∉ more) :
    ∃ m, (∀ m', JPlaces (jthings ops) made (.obj j) m' ↔ m' = m) ∧ ShowsExactly w2 k m := by
  obtain ⟨A, I⟩ := World.run_inv hp r
  have W := World.run_within ops
  rw [r] at W
  have W : w.Within (supplied ops) := W
  obtain ⟨L, hst⟩ := World.run_given hp hf hn hsim hm (fun op h => exact_strict (hr op h)) r
  obtain ⟨m, h1, h2⟩ := World.emit_exact I L W (World.run_lined hf r) (World.run_given_positive hf hn hm r) hst hr
    (made_makes hm) hu e (.of_run e2 hg hset)
  exact ⟨m, fun m' => ⟨fun h => JPlaces.unique (made_together hm) h1 hu h, fun h => h ▸ h1⟩, h2⟩

/-! Non-trivial case: the program of C66 and what its last pair reads. -/

example : Unreplaced (jthings c66Program) false (.obj 6) ∧ JPlaces (jthings c66Program) c66Made (.obj 6) c66Last :=
  ⟨c66_unreplaced, c66_last⟩
example : (filesOf c66Last = [some "a.js".toList, some "g.js".toList, some "h.js".toList] ∧
    namesOf c66Last = [some "n".toList]) ∧
    encode (segsOf c66Last) = ";AAAA,IAAE;AACF;ACDAA,GCEAA;AFFE;AACF".toList := by decide +kernel

end WS
