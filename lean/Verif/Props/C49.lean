import Verif.Proofs.JsHashEnds
/-!
# C49: what `updateHash` feeds to the hash

Full claim: for every program, `updateHash` of an object feeds the stream of what the object is
(`Spec.JHash`: in particular a ConcatSource the streams of exactly the items its text is made of), and
it returns for every object that has a text.

Proved part (`C49_stream_partial`): the streams agree in programs where no ConcatSource is added to
after it was itself added to another, and hashing then returns exactly for the objects that have a text
(`C49_returns_partial`). Without prefixes and extra original texts, the stream is the
text (`C49_text_partial`).

False of the code otherwise (`C49_late`, `C49_loop`): the wasm side copies the items of an added
ConcatSource, the JavaScript side keeps the object (`wasm-api/ConcatSource.js:51-56` tests a property
that does not exist). So an item added later is hashed but not part of the text, and two ConcatSources
added to each other hash for ever although both have a text.
-/

namespace WS
open Spec

/-- The stream fed to the hash is that of the object. -/
theorem C49_stream_partial (ops : List JOp) (w w' : World) (hp : ∀ op ∈ ops, op.Proper)
    (hs : Settled ops) (e : World.run ops = .ok w) (j : Nat) (l : List Str)
    (eh : (JOp.hash j).run w = .ok (.chunks l, w')) : JHash (jthings ops) (.obj j) l := by
  obtain ⟨A, I, F, C⟩ := World.runFrom_children World.empty_inv (F := [])
    ⟨by simp [World.empty], by simp [World.empty], rfl⟩ hp hs (by simp) e
  simp only [JOp.run, Except.map_ok_iff] at eh
  obtain ⟨p, h1, h2⟩ := eh
  cases h2
  exact ((hash_step _).1 _ _ _ _ I C h1).2.2

theorem _root_.WS.Spec.JHash.exists_text {st : List JThing} {src : JSrc} {l : List Str}
    (h : JHash st src l) : ∃ s, JText st src s := by
  induction h with
  | str s => exact ⟨s, .str s⟩
  | leaf hx => exact ⟨_, .leaf hx⟩
  | prefixed hx _ ih => obtain ⟨s, hs⟩ := ih; exact ⟨_, .prefixed hx hs⟩
  | replaced _ ht => exact ⟨_, ht⟩
  | @joined j items ls hx hl _ ih =>
    have : ∃ ss : List Str, ss.length = items.length ∧
        ∀ (k : Nat) (i : JSrc) (s : Str), items[k]? = some i → ss[k]? = some s → JText st i s := by
      rename_i all
      clear hx all
      induction items generalizing ls with
      | nil => exact ⟨[], rfl, by simp⟩
      | cons i items ih2 =>
        cases ls with
        | nil => simp at hl
        | cons l ls =>
          obtain ⟨s, hs⟩ := ih 0 i l rfl rfl
          obtain ⟨ss, h1, h2⟩ := ih2 (ls := ls) (by simpa using hl)
            (fun k i l hi hl => ih (k + 1) i l hi hl)
          refine ⟨s :: ss, by simp [h1], ?_⟩
          intro k i s hi hs
          cases k with
          | zero => cases hi; cases hs; assumption
          | succ k => exact h2 k i s hi hs
    obtain ⟨ss, h1, h2⟩ := this
    exact ⟨_, .joined hx h1 h2⟩

/-- Hashing returns exactly for the objects that have a text. -/
theorem C49_returns_partial (ops : List JOp) (w : World) (hp : ∀ op ∈ ops, op.Proper)
    (hs : Settled ops) (e : World.run ops = .ok w) (j : Nat) :
    (∃ l w', (JOp.hash j).run w = .ok (.chunks l, w')) ↔ ∃ s, JText (jthings ops) (.obj j) s := by
  have C0 : Children World.empty.objs [] [] := ⟨by simp [World.empty], by simp [World.empty], rfl⟩
  constructor
  · rintro ⟨l, w', eh⟩
    exact (C49_stream_partial ops w w' hp hs e j l eh).exists_text
  · rintro ⟨s, ht⟩
    obtain ⟨A, I, F, C⟩ := World.runFrom_children World.empty_inv C0 hp hs (by simp) e
    have R := World.runFrom_ranked World.empty_inv C0 ⟨fun _ => 0, by simp [World.empty]⟩ hp hs (by simp) e
    have hR := Ready.of_text C R I ht
    obtain ⟨n, hn⟩ := hR.within j rfl
    have hw : within w.objs (w.objs.length + 1) j = true := within_more (by omega) (within_stop hn)
    obtain ⟨l, w', eh⟩ := hash_returns _ _ _ I C hR hw
    exact ⟨l, w', by simp only [JOp.run, eh, Except.map]⟩

/-- Without prefixes, line-to-line sources and original texts, hashing the stream is hashing the
text. -/
theorem C49_text_partial (ops : List JOp) (w w' w'' : World) (hp : ∀ op ∈ ops, op.Proper)
    (hs : Settled ops) (e : World.run ops = .ok w) (j : Nat) (l : List Str) (s : Str)
    (eh : (JOp.hash j).run w = .ok (.chunks l, w'))
    (hk : ∀ x ∈ jthings ops, (∀ p c, x ≠ .prefixed p c) ∧ ∀ v ex, x = .leaf v ex → ex = [])
    (er : w.readSource j = .ok (s, w'')) : l.flatten = s := by
  have h1 := (C49_stream_partial ops w w' hp hs e j l eh).text hk
  obtain ⟨A, I⟩ := World.run_inv hp e
  exact h1.unique _ ((I.source_iff j s).1 ⟨_, er⟩)

/-- A program of that kind, with a ConcatSource inside another. -/
def c49Program : List JOp :=
  [.newRaw "ab".toList, .newOriginal "cd\n".toList "o.js".toList, .newConcat [.obj 0, .str "-".toList],
   .newReplace (.obj 1), .replace 3 0 0 "C".toList,
   .newConcat [.obj 2, .obj 3], .source 4, .add 4 (.obj 0)]

example : Settled c49Program := by
  simp [Settled, c49Program, JOp.items]

example : ((World.run c49Program).bind fun w => ((JOp.hash 4).run w).map Prod.fst) =
    .ok (.chunks ["ab".toList, "-".toList, "Cd\n".toList, "ab".toList]) := by decide +kernel

example : ∀ x ∈ jthings c49Program, (∀ p c, x ≠ .prefixed p c) ∧ ∀ v ex, x = .leaf v ex → ex = [] := by
  intro x hx
  have : jthings c49Program = [.leaf "ab".toList [], .leaf "cd\n".toList [],
      .joined [.obj 0, .str "-".toList], .replaced (.obj 1) [⟨0, 0, "C".toList⟩],
      .joined [.obj 0, .str "-".toList, .obj 3, .obj 0]] := by decide +kernel
  rw [this] at hx
  simp only [List.mem_cons, List.not_mem_nil, or_false] at hx
  rcases hx with h | h | h | h | h <;> subst h <;> simp

/-- A ConcatSource that is added to after it was added. -/
def c49Late : List JOp :=
  [.newConcat [.str "a".toList], .newConcat [.obj 0], .add 0 (.str "b".toList)]

/-- The text of the outer one does not have the item, the hash does. -/
theorem C49_late : ((World.run c49Late).bind fun w => ((JOp.hash 1).run w).map Prod.fst) =
      .ok (.chunks ["a".toList, "b".toList]) ∧
    ((World.run c49Late).bind fun w => (w.readSource 1).map Prod.fst) = .ok "a".toList ∧
    ¬ JHash (jthings c49Late) (.obj 1) ["a".toList, "b".toList] := by
  refine ⟨by decide +kernel, by decide +kernel, ?_⟩
  intro h
  have h0 : jthings c49Late = [.joined [.str "a".toList, .str "b".toList], .joined [.str "a".toList]] := by
    decide +kernel
  have h1 : JHash (jthings c49Late) (.obj 1) ["a".toList] := by
    rw [h0]
    refine JHash.joined (j := 1) (items := [.str "a".toList]) (ls := [["a".toList]]) rfl rfl ?_
    intro k i l hi hl
    cases k with
    | zero => cases hi; cases hl; exact .str _
    | succ k => cases hi
  have := h.unique _ h1
  revert this; decide

/-- Two ConcatSources added to each other. -/
def c49Loop : List JOp :=
  [.newConcat [.str "a".toList], .newConcat [.str "b".toList], .add 0 (.obj 1), .add 1 (.obj 0)]

/-- Both have a text; hashing does not end. -/
theorem C49_loop : ((World.run c49Loop).bind fun w => ((JOp.hash 0).run w).map Prod.fst) =
      .error .stack ∧
    ((World.run c49Loop).bind fun w => (w.readSource 0).map Prod.fst) = .ok "ab".toList ∧
    ((World.run c49Loop).bind fun w => (w.readSource 1).map Prod.fst) = .ok "bab".toList := by
  refine ⟨by decide +kernel, by decide +kernel, by decide +kernel⟩

end WS
