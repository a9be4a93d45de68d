import Verif.Proofs.Vlq
/-! # C21 VLQ numbers survive encoding -/

namespace WS
open Spec

/-- C21: decoding an encoded number gives it back and leaves what follows. -/
theorem C21_roundtrip (v : Int) (t : List Char) : vlqDecode (vlqEncode v ++ t) = some (v, t) := by
  obtain ⟨rest, h1, _, _, h4⟩ := vlqDecode_fields (vlqEncode_fields v)
  rw [h4 t, fields_eq_nil h1]
  rfl

/-- C21: what is written for a number is what the Source Map format prescribes, also when more
numbers follow. -/
theorem C21_format (v : Int) (t : List Char) (xs : List Int) (ht : fields t = some xs) :
    fields (vlqEncode v ++ t) = some (v :: xs) := fields_encode v t xs ht

/-- C21: an encoded number is not empty and contains no separator. -/
theorem C21_no_separator (v : Int) : vlqEncode v ≠ [] ∧ ',' ∉ vlqEncode v ∧ ';' ∉ vlqEncode v := by
  refine ⟨fun h => ?_, sep_of_fields (vlqEncode_fields v)⟩
  have := vlqEncode_fields v
  rw [h] at this
  cases this

/-- C21: the decoder agrees with the format on every well-formed sequence of numbers. -/
theorem C21_decode_format (s : List Char) (x : Int) (xs : List Int)
    (h : fields s = some (x :: xs)) (t : List Char) :
    ∃ rest, vlqDecode (s ++ t) = some (x, rest ++ t) ∧ fields rest = some xs := by
  obtain ⟨rest, h1, _, _, h4⟩ := vlqDecode_fields h
  exact ⟨rest, h4 t, h1⟩

example : vlqEncode (-1234) = "ltC".toList := by decide
example : vlqEncode 2147483647 = "+/////D".toList := by decide +kernel
example : fields "AAgBC".toList = some [0, 0, 16, 1] := by decide +kernel

end WS
