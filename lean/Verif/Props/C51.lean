import Verif.Props.C02
import Verif.Proofs.JsHash
/-!
# C51: `size()` of the JavaScript objects

Full claim: `size()` is the length of `source()` in one unit for all objects. False of the code
(`C51_units`): the leaf classes count UTF-16 units, the others UTF-8 bytes.

Proved: which unit each object uses (`C51_size`), and that the unit does not matter for ASCII texts
(`C51_ascii_partial`).
-/

namespace WS
open Spec

/-- The number of UTF-16 code units of a text. -/
def Spec.utf16Units : List Char → Nat
  | [] => 0
  | c :: s => (if 0xFFFF < c.toNat then 2 else 1) + Spec.utf16Units s

/-- The objects that answer `size()` themselves. -/
def Spec.IsLeaf (st : List JThing) (j : Nat) : Prop := ∃ v ex, st[j]? = some (.leaf v ex)

theorem utf16Len_eq (s : Str) : utf16Len s = utf16Units s := by
  induction s with
  | nil => rfl
  | cons c s ih =>
    have : (if c.val.toNat < 0x10000 then 1 else 2) = (if 0xFFFF < c.toNat then 2 else 1) := by
      have : c.toNat = c.val.toNat := rfl
      rw [this]
      by_cases h : c.val.toNat < 0x10000
      · rw [if_pos h, if_neg (by omega)]
      · rw [if_neg h, if_pos (by omega)]
    rw [utf16Units, ← ih, ← this, utf16Len, utf16Len]
    simp

theorem api_size_abs {A : AHeap} {h : Heap} (H : Abs A h) (i : Nat) :
    (apiSize h i).map Prod.fst = (apiSource h i).map fun p => p.1.utf8Encode.size := by
  obtain ⟨h1, _, e1⟩ := hSource_computes A (budget h) h [] (.ref i) H
  obtain ⟨h2, _, e2⟩ := hSize_computes A (budget h) h [] (.ref i) H
  rw [apiSize, apiSource, e1, e2, aSize_eq]
  cases aSource (budget h) A [] (.ref i) with
  | error e => rfl
  | ok s => simp [Except.map, blen_eq_utf8]

/-- The size of a leaf is the number of UTF-16 units of its text; of any other object, the number of
UTF-8 bytes. Both reads work on the same objects. -/
theorem C51_size (ops : List JOp) (w : World) (hp : ∀ op ∈ ops, op.Proper)
    (e : World.run ops = .ok w) (j : Nat) :
    (IsLeaf (jthings ops) j → (w.readSize j).map Prod.fst =
      (w.readSource j).map fun p => utf16Units p.1) ∧
    (¬ IsLeaf (jthings ops) j → (w.readSize j).map Prod.fst =
      (w.readSource j).map fun p => p.1.utf8Encode.size) := by
  obtain ⟨A, I⟩ := World.run_inv hp e
  simp only [World.readSize, World.readSource]
  cases ho : w.objs[j]? with
  | none => exact ⟨fun _ => rfl, fun _ => rfl⟩
  | some o =>
    obtain ⟨x, hx, sim⟩ := I.sim.get' ho
    have hl : o.kind.value = none ↔ ¬ IsLeaf (jthings ops) j := by
      generalize o.kind = k at sim
      cases sim with
      | leaf hk _ _ => simp [hk, IsLeaf, hx]
      | prefixed => simp [JKind.value, IsLeaf, hx]
      | replaced => simp [JKind.value, IsLeaf, hx]
      | joined => simp [JKind.value, IsLeaf, hx]
    cases hv : o.kind.value with
    | some v =>
      refine ⟨fun _ => ?_, fun h => ?_⟩
      · simp [hv, Except.map, utf16Len_eq]
      · rw [← hl, hv] at h; cases h
    | none =>
      refine ⟨fun h => absurd h (hl.1 hv), fun _ => ?_⟩
      have := api_size_abs I.abs o.ptr
      simp only [hv, World.call, Op.run]
      cases h1 : apiSource w.heap o.ptr with
      | error p =>
        rw [h1] at this
        cases h2 : apiSize w.heap o.ptr with
        | error q => rw [h2] at this; cases this; rfl
        | ok q => rw [h2] at this; cases this
      | ok p =>
        rw [h1] at this
        cases h2 : apiSize w.heap o.ptr with
        | error q => rw [h2] at this; cases this
        | ok q =>
          rw [h2] at this
          simp only [Except.map, Except.ok.injEq] at this
          simp [Except.map, Except.bind, this]

theorem utf16Units_ascii {s : Str} (h : ∀ c ∈ s, c.toNat < 128) : utf16Units s = s.length := by
  induction s with
  | nil => rfl
  | cons c s ih =>
    have := h c (by simp)
    rw [utf16Units, ih (fun c hc => h c (by simp [hc])), if_neg (by omega), List.length_cons]; omega

theorem utf8Size_of_ascii {c : Char} (h : c.toNat < 128) : c.utf8Size = 1 := by
  have hv : c.val.toNat < 128 := h
  have : c.val ≤ 127 := by
    rw [UInt32.le_iff_toNat_le]
    have : (127 : UInt32).toNat = 127 := rfl
    omega
  simp [Char.utf8Size, this]

theorem utf8_ascii {s : Str} (h : ∀ c ∈ s, c.toNat < 128) : s.utf8Encode.size = s.length := by
  rw [← blen_eq_utf8]
  induction s with
  | nil => rfl
  | cons c s ih =>
    have h1 := utf8Size_of_ascii (h c (by simp))
    have := ih (fun c hc => h c (by simp [hc]))
    simp only [blen, List.map_cons, List.sum_cons, List.length_cons] at *
    omega

/-- For ASCII texts the size is the number of characters, whatever the object. -/
theorem C51_ascii_partial (ops : List JOp) (w w1 w2 : World) (hp : ∀ op ∈ ops, op.Proper)
    (e : World.run ops = .ok w) (j : Nat) (s : Str) (n : Nat) (hs : w.readSource j = .ok (s, w1))
    (hn : w.readSize j = .ok (n, w2)) (ha : ∀ c ∈ s, c.toNat < 128) : n = s.length := by
  obtain ⟨h1, h2⟩ := C51_size ops w hp e j
  by_cases hl : IsLeaf (jthings ops) j
  · have := h1 hl
    rw [hs, hn] at this
    simp only [Except.map, Except.ok.injEq] at this
    rw [this, utf16Units_ascii ha]
  · have := h2 hl
    rw [hs, hn] at this
    simp only [Except.map, Except.ok.injEq] at this
    rw [this, utf8_ascii ha]

/-- A RawSource and a ConcatSource of it, outside ASCII. -/
def c51Program : List JOp := [.newRaw "€𝄞".toList, .newConcat [.obj 0]]

/-- The same text has different sizes: 1 + 2 UTF-16 units, 3 + 4 bytes. -/
theorem C51_units :
    ((World.run c51Program).bind fun w => (w.readSize 0).map Prod.fst) = .ok 3 ∧
    ((World.run c51Program).bind fun w => (w.readSize 1).map Prod.fst) = .ok 7 ∧
    ((World.run c51Program).bind fun w => (w.readSource 0).map Prod.fst) =
      ((World.run c51Program).bind fun w => (w.readSource 1).map Prod.fst) := by
  refine ⟨by decide +kernel, by decide +kernel, by decide +kernel⟩

/-- Objects of both kinds with an ASCII text. -/
def c51Ascii : List JOp := [.newRaw "ab\n".toList, .newPrefix "> ".toList (.obj 0),
  .newConcat [.obj 1, .obj 0]]

example : ((World.run c51Ascii).bind fun w => (w.readSize 2).map Prod.fst) = .ok 8 ∧
    ((World.run c51Ascii).bind fun w => (w.readSource 2).map Prod.fst) = .ok "> ab\nab\n".toList := by
  refine ⟨by decide +kernel, by decide +kernel⟩

end WS
