import Verif.Props.C60
import Verif.Props.C12Objects
import Verif.Proofs.JsLog
import Verif.Proofs.PieceOrder
/-! # C60 with `columns: false` -/

namespace WS
open Spec

/-- Every `SourceMapSource` gets an object with mappings that can be read, with line numbers that fit. -/
def Spec.JOp.LineMaps : JOp → Prop
  | .newSms _ _ m _ _ => ∃ ss cs ns mp y, m = .plain ss cs ns mp ∧ decode mp = some y ∧ ∀ s ∈ y, s.LineFits
  | _ => True

/-- A valid map without names. -/
def Spec.ValidLines (w : World) (k : Nat) : Prop :=
  ∃ l s ps, Reads w k .sources (.list l) ∧ Reads w k .names .undefined ∧ Reads w k .mappings (.text s) ∧
    points (idTable l.length) [] s = some ps ∧
    ps.Pairwise (fun a b => a.line < b.line ∨ (a.line = b.line ∧ a.col ≤ b.col)) ∧
    (l.filter Option.isSome).Nodup

theorem JOp.LineMaps.fit {ops : List JOp} (h : ∀ j ∈ ops, Spec.JOp.LineMaps j) {o : Op} {j : JOp} (hj : j ∈ ops)
    (ho : o.Of j) : Spec.Op.LinesFit o := by
  have h := h j hj
  cases o with
  | newOriginal v n i =>
    have := ho.1
    simp only [Spec.Op.LinesFit]
    omega
  | newL2l v n i =>
    have := ho.1
    simp only [Spec.Op.LinesFit]
    omega
  | newSms v vi n hd o i =>
    obtain ⟨h0, name, m, o', i', rfl, -, hm⟩ := ho
    obtain ⟨ss, cs, ns, mp, y, rfl, hy, hf⟩ := h
    obtain ⟨hgen, d, hdd, rfl, hs⟩ := hm ss cs ns mp rfl
    refine ⟨by omega, ⟨fun d' e => ?_, fun e => ?_⟩, fun d' e => ?_, fun g e => ?_⟩
    · rw [hdd] at e; cases e; exact ⟨y, hy, hf⟩
    · rw [hdd] at e; cases e
    · rw [hdd] at e; cases e
      exact fun hc => absurd (hs _ hc) (by decide)
    · rw [hgen] at e; cases e
  | _ => trivial

theorem validLines_of_fit {ops more : List JOp} {w w1 w2 : World} {j k : Nat} {m : Bool}
    (r : World.run ops = .ok w) (hf : ∀ o ∈ w.log, o.LineOk)
    (e : (JOp.sourceAndMap j false m).run w = .ok (.pair k, w1)) (e2 : w1.runFrom more = .ok w2)
    (hg : ∀ op ∈ more, ¬ op.gives k) (hset : ∀ a, .set k a ∉ more) : ValidLines w2 k := by
  obtain ⟨hl, -⟩ := World.run_log r
  have W : w.Within (supplied ops) := by
    have := World.run_within ops
    rw [r] at this
    exact this
  simp only [JOp.run] at e
  unfold World.emit at e
  split at e
  · cases e
  rename_i o ho'
  split at e
  · cases e
  simp only [Bool.false_eq_true, if_false, Except.bind_ok_iff] at e
  obtain ⟨⟨a, w3⟩, h1, h2⟩ := e
  dsimp only at h2
  split at h2
  · rename_i sl
    have hw3 : w3.strs = w.strs := by
      simp only [World.call] at h1
      split at h1
      · cases h1
      · cases h1; rfl
    have hn : ∃ h', apiListMap w.heap o.ptr false m = .ok (sl, h') := by
      simp only [World.call, Op.run] at h1
      cases hn : apiListMap w.heap o.ptr false m with
      | error e => rw [hn] at h1; cases h1
      | ok p => rw [hn] at h1; simp only [Except.map] at h1; cases h1; exact ⟨_, rfl⟩
    obtain ⟨h', hn⟩ := hn
    obtain ⟨-, q, hq, -, hp, -⟩ := objects_list_points none hf hl hn
    obtain ⟨hs, -, -⟩ := objects_lines_valid hf hl hq
    have hqe : q = slmToStringWithSourceMap sl none := by
      rw [apiSourceAndMap, if_neg (by simp), hn] at hq
      cases hq; rfl
    subst hqe
    have hin := (slmToStringWithSourceMap_in (hListMap_in _ _ _ _ _ _ _ _ W.heap hn).1 (.inl rfl) none)
    cases h2
    have grown : ∃ x, w2.strs.array = w.strs.array ++ x := by
      obtain ⟨e', -, he⟩ := (show Lasting (fun t (_ : Emitted) => ∃ x, t.array = w.strs.array ++ x) from
        ⟨fun ⟨r, hr⟩ ⟨x, hx⟩ => ⟨x ++ r, by rw [hr, hx, List.append_assoc]⟩, fun h _ => h⟩).runFrom
          List.getElem?_concat_length ⟨[], by simp [hw3]⟩ (fun ⟨op, h, h'⟩ => absurd h' (hg op h))
          (fun a h => absurd h (hset a)) e2
      exact he
    have tells := fun f => (Tells.lasting false (slmToStringWithSourceMap sl none).source
        (slmToStringWithSourceMap sl none).map f).runFrom List.getElem?_concat_length
        (Tells.new ⟨_, rfl⟩) (fun ⟨op, h, h'⟩ => absurd h' (hg op h))
          (fun a h => absurd h (hset a)) e2
    generalize hM : (slmToStringWithSourceMap sl none).map = M at *
    have has := dom_sub_has (U := supplied ops) w.strs
    have h1 : M.sources.map w2.strs.name = M.sources.map w.strs.name :=
      List.map_congr_left fun i hi => (StrTable.Has.mono grown (has.S i (hin.sources i hi))).2
    have hv := StrTable.values_get (t := w2.strs) (ids := M.sources) fun i hi =>
      (StrTable.Has.mono grown (has.S i (hin.sources i hi))).1
    have hnames : M.names = [] := by rw [← hM]; simp [slmToStringWithSourceMap]
    rw [mapPoints, points_rename, hnames] at hp
    cases hx : points (idTable M.sources.length) [] M.mappings with
    | none => rw [hx] at hp; cases hp
    | some ps =>
      rw [hx] at hp
      have hp : ps.map (renamePoint M.sources) = piecesPoints (1, 0) (sl.map LNode.piece) := by simpa using hp
      refine ⟨M.sources.map w2.strs.name, M.mappings, ps, ?_, ?_, ?_,
        by rw [List.length_map]; exact hx, ?_, ?_⟩
      · obtain ⟨e, k1, k2⟩ := tells .sources
        exact Tells.reads k1 k2 ⟨_, hv, rfl⟩
      · obtain ⟨e, k1, k2⟩ := tells .names
        exact Tells.reads k1 k2 (by simp [Displays])
      · obtain ⟨e, k1, k2⟩ := tells .mappings
        exact Tells.reads k1 k2 rfl
      · have := pieces_sorted (sl.map LNode.piece) (1, 0)
        rw [← hp, List.pairwise_map] at this
        exact this
      · rw [h1]; exact canon_sources hs hin.sources
  · cases h2

/-- The pair handed out by `sourceAndMap({columns: false})` of an object is valid whenever it is read later.

Missing: maps of pairs handed to `SourceMapSource`s (`C60_lines_given_partial`); `null` as a file may be listed twice. -/
theorem C60_lines_partial (ops more : List JOp) (w w1 w2 : World) (j k : Nat) (m : Bool)
    (r : World.run ops = .ok w) (hm : ∀ op ∈ ops, Spec.JOp.LineMaps op)
    (e : (JOp.sourceAndMap j false m).run w = .ok (.pair k, w1)) (e2 : w1.runFrom more = .ok w2)
    (hg : ∀ op ∈ more, ¬ op.gives k) (hset : ∀ a, .set k a ∉ more) : ValidLines w2 k := by
  obtain ⟨-, ho⟩ := World.run_log r
  refine validLines_of_fit r (fun o h => ?_) e e2 hg hset
  obtain ⟨j, hj, hoj⟩ := ho o h
  exact .of_fit (JOp.LineMaps.fit hm hj hoj)

/-! Non-trivial case. -/

def c60Lines : List JOp := [
  .newSms "ab;cd\n".toList "n".toList (.plain [some "x.js".toList, some "y.js".toList]
    [] [some "p".toList, some "q".toList] "AAAAA,ECAAC".toList) none none,
  .newSms "ef\ngh".toList "n".toList (.plain [some "y.js".toList] [] [some "q".toList] "AAAAA;AACA".toList)
    none none,
  .newOriginal "i\nj;k\n".toList "x.js".toList,
  .newConcat [.obj 0, .obj 1, .obj 2],
  .newReplace (.obj 3),
  .replace 4 1 2 "z".toList]

set_option synthInstance.maxSize 1000 in
example : ((World.run (c60Lines ++ [.sourceAndMap 4 false true])).toOption.map fun w =>
    (readField w 0 .sources, readField w 0 .names, readField w 0 .mappings)) =
    some (some (.list [some "x.js".toList, some "y.js".toList]), some .undefined,
      some (.text "AAAA;ACAA;AACA,EDDA;AACA;".toList)) := by decide +kernel

example : ∀ op ∈ c60Lines, Spec.JOp.LineMaps op := by
  simp only [c60Lines, List.forall_mem_cons, Spec.JOp.LineMaps]
  refine ⟨⟨_, _, _, _, [⟨1, 0, some (0, 0, 0, some 0)⟩, ⟨1, 2, some (1, 0, 0, some 1)⟩], rfl,
      by decide +kernel, ?_⟩, ⟨_, _, _, _, [⟨1, 0, some (0, 0, 0, some 0)⟩, ⟨2, 0, some (0, 1, 0, none)⟩], rfl,
      by decide +kernel, ?_⟩, trivial, trivial, trivial, trivial, by simp⟩
  all_goals
    intro s hs x hx
    simp only [List.mem_cons, List.not_mem_nil, or_false] at hs
    rcases hs with rfl | rfl <;> (cases hx; decide)

end WS
