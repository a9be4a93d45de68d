import Verif.Proofs.JsRun
/-!
# C46: `source()` of a JavaScript program

For every program over the classes of `wasm-api` that does not throw, `source()` of any of its
objects returns exactly the text that the statements describe (`Spec.JText`), whatever reads,
hashes, emitted maps and property assignments happened in between, and it throws exactly for the
objects that have no text (those that contain themselves).
-/

namespace WS
open Spec

/-- `source()` returns the described text. Positions are whole or not negative. -/
theorem C46_source (ops : List JOp) (w : World) (hp : ∀ op ∈ ops, op.Proper)
    (e : World.run ops = .ok w) (j : Nat) (s : Str) :
    (∃ w', w.readSource j = .ok (s, w')) ↔ JText (jthings ops) (.obj j) s := by
  obtain ⟨A, I⟩ := World.run_inv hp e
  exact I.source_iff j s

/-- The described text is unique. -/
theorem C46_unique (ops : List JOp) (w : World) (hp : ∀ op ∈ ops, op.Proper)
    (e : World.run ops = .ok w) (j : Nat) (s t : Str) (hs : JText (jthings ops) (.obj j) s)
    (ht : JText (jthings ops) (.obj j) t) : s = t := by
  obtain ⟨w1, h1⟩ := (C46_source ops w hp e j s).2 hs
  obtain ⟨w2, h2⟩ := (C46_source ops w hp e j t).2 ht
  rw [h1] at h2; cases h2; rfl

/-- Reading does not change what is read: after any statement that makes or changes no object the
same text is returned. -/
theorem C46_stable (ops more : List JOp) (w w' : World) (hp : ∀ op ∈ ops ++ more, op.Proper)
    (hr : ∀ op ∈ more, ∀ st, jstep st op = st) (e : World.run ops = .ok w)
    (e' : w.runFrom more = .ok w') (j : Nat) (s : Str) :
    (∃ w1, w.readSource j = .ok (s, w1)) ↔ ∃ w1, w'.readSource j = .ok (s, w1) := by
  obtain ⟨A, I⟩ := World.run_inv (fun o ho => hp o (by simp [ho])) e
  obtain ⟨A', I'⟩ := World.runFrom_inv I (fun o ho => hp o (by simp [ho])) e'
  have : more.foldl jstep (jthings ops) = jthings ops := by
    clear hp e' I' I
    induction more with
    | nil => rfl
    | cons m more ih =>
      rw [List.foldl_cons, hr m (by simp)]
      exact ih (fun o ho => hr o (by simp [ho]))
  rw [this] at I'
  rw [I.source_iff, I'.source_iff]

/-- A program with every class, two RawSources sharing their wasm object, fractional positions, an
emitted map that is moved into a SourceMapSource, and a ConcatSource added to another. -/
def c46Program : List JOp :=
  [.newRaw "raw\n".toList, .newRaw "raw\n".toList,
   .newOriginal "abcdef\n".toList "o.js".toList,
   .newReplace (.obj 2),
   .insert 3 (5/2) "B".toList, .insert 3 (9/4) "A".toList, .replace 3 4 4 "E".toList,
   .sourceAndMap 3 true true, .get 0 .mappings,
   .newSms "abABcdEf\n".toList "gen.js".toList (.emitted 0) none none,
   .newConcat [.obj 0, .str "x".toList, .obj 3],
   .newConcat [.obj 5, .obj 1, .obj 4],
   .add 5 (.str "later".toList),
   .newPrefix "> ".toList (.obj 6),
   .newL2l "l".toList "l.js".toList "L".toList]

example : (World.run c46Program).toOption.isSome = true := by decide +kernel

example : ((World.run c46Program).bind fun w => (w.readSource 7).map Prod.fst) =
    .ok "> raw\n> xabABcdEf\n> raw\n> abABcdEf\n".toList := by decide +kernel

example : ∀ op ∈ c46Program, op.Proper := by
  intro op h
  simp only [c46Program, List.mem_cons, List.not_mem_nil, or_false] at h
  rcases h with h | h | h | h | h | h | h | h | h | h | h | h | h | h | h <;> subst h <;>
    simp only [JOp.Proper, Spec.Proper] <;> decide +kernel

/-- Two objects that contain each other have no text and `source()` throws; the program itself does
not. -/
def c46Cycle : List JOp :=
  [.newConcat [], .newPrefix "p".toList (.obj 0), .add 0 (.obj 1)]

example : (World.run c46Cycle).toOption.isSome = true := by decide +kernel
example : ((World.run c46Cycle).bind fun w => (w.readSource 0).map Prod.fst) = .error (.trap .borrow) := by
  decide +kernel

end WS
