import Verif.Props.C61
import Verif.Proofs.JsApart
/-!
# C61: freed memory

Claim: a program with `clear()` never uses freed memory. It is true when between two calls of `clear()` no two
`RawSource`s have the same value, and false in general.
-/

namespace WS
open Spec

/-- Since the last `clear()` no two `RawSource`s have the same value; `seen`: those there already are. -/
def Spec.FreshRaws : List Str → List KOp → Prop
  | _, [] => True
  | _, .clear :: ops => FreshRaws [] ops
  | seen, .js (.newRaw v) :: ops => v ∉ seen ∧ FreshRaws (v :: seen) ops
  | seen, .js _ :: ops => FreshRaws seen ops

theorem oldObjs_apart {n : Nat} : ∀ {os : List JObj} {seen : List Nat}, (os.map JObj.ptr).Nodup →
    (∀ o ∈ os, o.ptr ∉ seen) → ∀ x ∈ oldObjs n seen os, x.dangling = false
  | [], _, _, _, x, hx => by simp [oldObjs] at hx
  | o :: os, seen, hd, hs, x, hx => by
    simp only [List.map_cons, List.nodup_cons] at hd
    rcases List.mem_cons.1 (by simpa [oldObjs] using hx) with rfl | hx
    · simpa using hs o (by simp)
    · refine oldObjs_apart hd.2 (fun o' ho' => ?_) x hx
      simp only [List.mem_cons, not_or]
      refine ⟨fun e => hd.1 (e ▸ List.mem_map_of_mem ho'), hs o' (by simp [ho'])⟩

/-- No object has a pointer to freed memory, now or after `clear()`. -/
structure KWorld.Safe (seen : List Str) (w : KWorld) : Prop where
  old : ∀ x ∈ w.old, x.dangling = false
  base : w.base.Apart seen

theorem World.Apart.empty (maps : List Emitted) : ({ World.empty with maps := maps } : World).Apart [] := by
  refine ⟨⟨[], ?_⟩, by simp [World.empty], by simp [World.empty], by simp [World.empty],
    by simp [World.empty]⟩
  exact Abs.empty

theorem KWorld.Safe.clear {seen : List Str} {w : KWorld} (h : w.Safe seen) : w.clear.Safe [] := by
  refine ⟨fun x hx => ?_, World.Apart.empty _⟩
  rcases List.mem_append.1 hx with hx | hx
  · exact h.old x hx
  · exact oldObjs_apart h.base.nodup (by simp) x hx

theorem handOld_safe {old : List OldObj} (h : ∀ x ∈ old, x.dangling = false) :
    ∀ l : List JSrc, handOld old l ≠ .freed
  | [] => by simp [handOld]
  | .str s :: rest => by simpa [handOld] using handOld_safe h rest
  | .obj j :: rest => by
    simp only [handOld]
    split
    · exact handOld_safe h rest
    · rename_i o ho
      simp [h o (List.mem_of_getElem? ho)]

theorem oldHashEach_safe {f : Nat → Except KErr (List Str)} (hf : ∀ j, f j ≠ .error .freed) :
    ∀ l : List JSrc, oldHashEach f l ≠ .error .freed
  | [] => by simp [oldHashEach]
  | .str s :: rest => by
    simp only [oldHashEach]
    have := oldHashEach_safe hf rest
    cases h : oldHashEach f rest <;> simp_all [Except.map]
  | .obj j :: rest => by
    simp only [oldHashEach]
    have := oldHashEach_safe hf rest
    have := hf j
    cases h : f j <;> cases h' : oldHashEach f rest <;> simp_all [Except.map, Except.bind]

theorem oldHash_safe (old : List OldObj) : ∀ fuel j, oldHash old fuel j ≠ .error .freed
  | 0, j => by simp [oldHash]
  | fuel + 1, j => by
    simp only [oldHash]
    split
    · simp
    · split <;> try simp
      · rename_i c _
        have := oldHashEach_safe (oldHash_safe old fuel) [c]
        cases h : oldHashEach (oldHash old fuel) [c] <;> simp_all [Except.map]
      · exact oldHashEach_safe (oldHash_safe old fuel) _

theorem KWorld.runOld_safe {w : KWorld} (h : ∀ x ∈ w.old, x.dangling = false) (op : JOp) :
    w.runOld op ≠ .error .freed := by
  cases op with
  | newPrefix p c => simpa [KWorld.runOld] using handOld_safe h [c]
  | newReplace c => simpa [KWorld.runOld] using handOld_safe h [c]
  | newConcat cs => simpa [KWorld.runOld] using handOld_safe h cs
  | add j c =>
    simp only [KWorld.runOld]
    split
    · simp
    · simpa using handOld_safe h [c]
  | source j => simp only [KWorld.runOld]; split <;> simp
  | size j => simp only [KWorld.runOld]; split <;> simp
  | sourceAndMap j c m => simp only [KWorld.runOld]; split <;> simp
  | hash j =>
    simp only [KWorld.runOld]
    have := oldHash_safe w.old (w.old.length + 1) j
    cases h : oldHash w.old (w.old.length + 1) j <;> simp_all [Except.map]
  | _ => simp [KWorld.runOld]

/-- The `RawSource`s there are after a statement. -/
def seenAfter (seen : List Str) : JOp → List Str
  | .newRaw v => v :: seen
  | _ => seen

theorem KOp.run_safe {w : KWorld} {seen : List Str} (h : w.Safe seen) (op : JOp)
    (hv : ∀ v, op = .newRaw v → v ∉ seen) :
    match (KOp.js op).run w with
    | .ok p => p.2.Safe (seenAfter seen op)
    | .error e => e ≠ .freed := by
  cases hl : op.lower w.old.length with
  | some op' =>
    have raw : ∀ v, op' = .newRaw v ↔ op = .newRaw v := by
      intro v
      cases op <;> simp [JOp.lower, Option.map_eq_some_iff, Option.bind_eq_some_iff] at hl <;>
        (try obtain ⟨_, _, rfl⟩ := hl) <;> (try obtain ⟨_, _, _, _, rfl⟩ := hl) <;> (try subst hl) <;> simp
    have A := JOp.run_apart (op := op') h.base (fun v e => hv v ((raw v).1 e))
    have same : seenAfter seen op' = seenAfter seen op := by
      by_cases e : ∃ v, op = .newRaw v
      · obtain ⟨v, e⟩ := e
        rw [e, (raw v).2 e]
      · have e' : ¬∃ v, op' = .newRaw v := fun ⟨v, x⟩ => e ⟨v, (raw v).1 x⟩
        cases op <;> cases op' <;> first | rfl | exact absurd ⟨_, rfl⟩ e | exact absurd ⟨_, rfl⟩ e'
    simp only [KOp.run, hl]
    cases hr : op'.run w.base with
    | error e => simp
    | ok p =>
      rw [hr] at A
      rw [← same]
      refine ⟨h.old, ?_⟩
      have A : p.2.Apart _ := A
      cases op' <;> exact A
  | none =>
    simp only [KOp.run, hl]
    have := KWorld.runOld_safe h.old op
    cases hr : w.runOld op with
    | error e => rw [hr] at this; simp only [Except.map]; exact fun x => this (by rw [x])
    | ok a =>
      simp only [Except.map]
      refine ⟨h.old, ?_⟩
      cases op <;> first | exact h.base | simp [JOp.lower] at hl

theorem KWorld.runFrom_safe : ∀ {ops : List KOp} {w : KWorld} {seen : List Str}, w.Safe seen →
    FreshRaws seen ops → w.runFrom ops ≠ .error .freed
  | [], w, seen, h, hf => by simp [KWorld.runFrom]
  | .clear :: ops, w, seen, h, hf => by
    have := KWorld.runFrom_safe h.clear (by simpa [FreshRaws] using hf)
    simp only [KWorld.runFrom, KOp.run, Except.bind]
    cases hr : w.clear.runFrom ops with
    | error e => rw [hr] at this; simp only [Except.map]; exact fun x => this (by cases x; rfl)
    | ok a => simp [Except.map]
  | .js op :: ops, w, seen, h, hf => by
    have hv : ∀ v, op = .newRaw v → v ∉ seen := by
      rintro v rfl
      exact (by simpa [FreshRaws] using hf : _ ∧ _).1
    have hf' : FreshRaws (seenAfter seen op) ops := by
      cases op <;> first | exact hf | exact hf.2
    have := KOp.run_safe h op hv
    simp only [KWorld.runFrom]
    cases hr : (KOp.js op).run w with
    | error e =>
      rw [hr] at this
      simp only [Except.bind]
      exact fun x => this (by cases x; rfl)
    | ok p =>
      rw [hr] at this
      have ih := KWorld.runFrom_safe this hf'
      simp only [Except.bind]
      cases hr : p.2.runFrom ops with
      | error e => rw [hr] at ih; simp only [Except.map]; exact fun x => ih (by cases x; rfl)
      | ok a => simp [Except.map]

/-- **C61**, in part: between two calls of `clear()` no two `RawSource`s have the same value. -/
theorem C61_memory_partial (ops : List KOp) (h : FreshRaws [] ops) : KWorld.run ops ≠ .error .freed :=
  KWorld.runFrom_safe ⟨by simp [KWorld.empty], World.Apart.empty []⟩ h

/-! ## Programs -/

/-- What a program returns. -/
def kReturns (ops : List KOp) : Except KErr (List JAnswer) := (KWorld.run ops).map Prod.fst

/-- Two `RawSource`s with the same text, `clear()`, and a new `ConcatSource` with the given one. -/
def c61Twice (j : Nat) : List KOp :=
  [.js (.newRaw "x".toList), .js (.newRaw "x".toList), .clear, .js (.newConcat [.obj j])]

/-- **C61** is false in general: of two `RawSource`s with the same text only the first is in the pool, the second
keeps its pointer to freed memory. -/
theorem C61_memory_not_general : ¬∀ ops, KWorld.run ops ≠ .error .freed := fun h => by
  have e : kReturns (c61Twice 1) = .error .freed := by decide +kernel
  refine h (c61Twice 1) ?_
  unfold kReturns at e
  generalize KWorld.run (c61Twice 1) = r at e
  cases r with
  | error x => simpa [Except.map] using e
  | ok a => cases e

example : kReturns (c61Twice 0) = .error .null := by decide +kernel

/-- A program with two calls of `clear()`; texts are used again. -/
def c61Program : List KOp :=
  [.js (.newRaw "x".toList), .js (.newOriginal "a;b".toList "a.js".toList), .js (.newConcat [.obj 0, .obj 1]),
   .js (.sourceAndMap 2 true true), .js (.get 0 .sources), .clear,
   .js (.newRaw "x".toList), .js (.newOriginal "c".toList "b.js".toList), .js (.newConcat [.obj 3, .obj 4]),
   .js (.sourceAndMap 5 true true), .js (.get 1 .sources), .js (.get 0 .sources), .js (.source 1), .js (.hash 2),
   .clear, .js (.newRaw "x".toList), .js (.source 4), .js (.get 0 .sources)]

example : FreshRaws [] c61Program := by simp [c61Program, FreshRaws]
example : kReturns c61Program = .ok
    [.done, .done, .done, .pair 0, .field (.list [some "a.js".toList]), .done,
     .done, .done, .done, .pair 1, .field (.list [some "b.js".toList]), .field (.list [some "a.js".toList]),
     .text "a;b".toList, .chunks ["x".toList, "a;b".toList], .done, .done, .text "c".toList,
     .field (.list [some "a.js".toList])] := by decide +kernel

/-- The statements between the calls of `clear()` are the following ones with other numbers. -/
def c61More : List JOp :=
  [.newRaw "x".toList, .newOriginal "c".toList "b.js".toList, .newConcat [.obj 0, .obj 1], .sourceAndMap 2 true true,
   .get 0 .sources]

example : (c61Program.drop 6).take 5 = c61More.map fun op => .js (Spec.JOp.moved 3 1 op) := by decide
example : returns World.empty c61More =
    .ok [.done, .done, .done, .pair 0, .field (.list [some "b.js".toList])] := by decide +kernel

/-- A property that was not read before `clear()` cannot be read any more; a new read of maps neither. -/
example : kReturns (c61Program.take 6 ++ [.js (.get 0 .mappings)]) = .error (.js .moved) ∧
    kReturns (c61Program.take 6 ++ [.js (.sourceAndMap 2 true true)]) = .error (.js .moved) ∧
    kReturns (c61Program.take 6 ++ [.js (.source 2)]) = .error (.js .moved) := by decide +kernel

/-- A node with a file, `clear()`, and an object with another file. -/
def c61Node (clear : Bool) : Option JFieldVal := do
  let w ← (NWorld.run [.newNode 1 0 (some "a.js".toList) [.str "x".toList]]).toOption
  let w := if clear then w.clear else w
  let w ← (w.runFrom [.js (.newOriginal "y".toList "b.js".toList), .render 0]).toOption
  readField w.base 0 .sources

/-- Nodes outlive `clear()`, the string table does not: a node made before is rendered with the text of the new
object as the name of its file. -/
theorem C61_nodes_not_general : c61Node false = some (.list [some "a.js".toList]) ∧
    c61Node true = some (.list [some "y".toList]) := by decide +kernel

end WS
