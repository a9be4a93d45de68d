import Verif.Proofs.Reads
/-! # C02 `size()` is the byte length of `source()` -/

namespace WS
open Spec

theorem blen_eq_utf8 (s : Str) : blen s = s.utf8Encode.size := by
  induction s with
  | nil => rfl
  | cons c cs ih =>
    rw [List.utf8Encode_cons, ByteArray.size_append, ← ih]
    simp [blen, List.utf8Encode]

theorem eachA_map {α β : Type _} {f : Src → M α} {g : Src → M β} {k : α → β}
    (h : ∀ c, g c = (f c).map k) (cs : List Src) :
    eachA g cs = (eachA f cs).map (List.map k) := by
  induction cs with
  | nil => rfl
  | cons c cs ih =>
    simp only [eachA, h, ih]
    cases f c with
    | error e => rfl
    | ok a =>
      simp only [Except.bind, Except.map]
      cases eachA f cs <;> rfl

theorem aSize_eq (A : AHeap) (fuel : Nat) (busy : List Nat) (src : Src) :
    aSize fuel A busy src = (aSource fuel A busy src).map blen := by
  induction fuel generalizing busy src with
  | zero => rfl
  | succ fuel ih =>
    cases src with
    | str s => rfl
    | ref i =>
      simp only [aSize]
      split
      · rename_i hb; simp [aSource, hb, Except.map]
      · rename_i hb
        split
        · rename_i cs hA
          rw [eachA_map (fun c => ih (i :: busy) c)]
          simp only [aSource, hb, hA, if_false]
          cases eachA (aSource fuel A (i :: busy)) cs with
          | error e => rfl
          | ok ss => simp [Except.map, blen_flatten]
        · rfl

/-- C02. After any history, on every object, `size()` and `source()` either both succeed and the
size is the number of bytes of the UTF-8 encoding of the text, or both fail in the same way. -/
theorem C02_size_is_byte_length (ops : List Op) (h : Heap) (hrun : run ops = .ok h) (i : Nat) :
    (apiSize h i).map Prod.fst = (apiSource h i).map fun p => p.1.utf8Encode.size := by
  obtain ⟨A, _, H⟩ := run_abs hrun
  obtain ⟨h1, _, e1⟩ := hSource_computes A (budget h) h [] (.ref i) H
  obtain ⟨h2, _, e2⟩ := hSize_computes A (budget h) h [] (.ref i) H
  rw [apiSize, apiSource, e1, e2, aSize_eq]
  cases aSource (budget h) A [] (.ref i) with
  | error e => rfl
  | ok s => simp [Except.map, blen_eq_utf8]

/-! Non-trivial case: a prefixed concatenation of a string with a two-byte and a three-byte
character, and an object that contains itself (both reads trap). -/

/-- A composite with non-ASCII text. -/
def C02_history : List Op :=
  [.newRaw "é\n".toList, .newConcat, .add 1 (.ref 0), .add 1 (.str "→".toList),
   .newPrefix "ü".toList (.ref 1)]

example : (match run C02_history with
    | .ok h => (apiSize h 2).toOption.map Prod.fst | .error _ => none) = some 10 := by
  decide +kernel
example : "üé\nü→".toList.utf8Encode.size = 10 := by decide +kernel
example : (match run [.newConcat, .newPrefix [] (.ref 0), .add 0 (.ref 1)] with
    | .ok h => (apiSize h 0).map Prod.fst | .error e => .error e) = .error .borrow := by
  decide +kernel

end WS
