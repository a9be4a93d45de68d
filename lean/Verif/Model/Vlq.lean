import Verif.Model.Text
/-! # The external crate `vlq` 0.5.1

Not part of `/repo`; called from `src/source_map/source_map_generator.rs:138-164`,
`src/source_list_map/{source_node,single_line_node}.rs` and
`src/source_list_map/from_string_with_source_map.rs`. Modelled from its documentation: base64 VLQ
with the sign in the lowest bit, 5 data bits per digit, continuation bit 32, least significant
digit first. Simplification: integers are unbounded (the crate works on `i64`). -/

namespace WS

/-- Digit to base64 character (crate `vlq`, encoding table). -/
def b64Char (n : Nat) : Char :=
  if n < 26 then Char.ofNat (65 + n)
  else if n < 52 then Char.ofNat (97 + (n - 26))
  else if n < 62 then Char.ofNat (48 + (n - 52))
  else if n = 62 then '+' else '/'

/-- Base64 character to digit (crate `vlq`, decoding table). -/
def b64Val (c : Char) : Option Nat :=
  let n := c.toNat
  if 65 ≤ n && n ≤ 90 then some (n - 65)
  else if 97 ≤ n && n ≤ 122 then some (n - 97 + 26)
  else if 48 ≤ n && n ≤ 57 then some (n - 48 + 52)
  else if n = 43 then some 62
  else if n = 47 then some 63
  else none

/-- Digits of a natural number, least significant first (crate `vlq`, `encode` loop).
The first argument bounds the number of digits; `vlqEncode` passes enough. -/
def vlqDigits : Nat → Nat → Str
  | 0, u => [b64Char (u % 32)]
  | f + 1, u =>
    if u < 32 then [b64Char u]
    else b64Char (u % 32 + 32) :: vlqDigits f (u / 32)

/-- Sign moved to the lowest bit (crate `vlq`, `encode`). -/
def zigzag (v : Int) : Nat := if v < 0 then 2 * v.natAbs + 1 else 2 * v.natAbs

/-- `vlq::encode(v, &mut buf)`: the appended characters. -/
def vlqEncode (v : Int) : Str := vlqDigits (zigzag v) (zigzag v)

/-- Inverse of `zigzag` (crate `vlq`, end of `decode`). -/
def unzigzag (u : Nat) : Int := if u % 2 = 1 then -((u / 2 : Nat) : Int) else ((u / 2 : Nat) : Int)

/-- `vlq::decode` loop; `acc` is the value so far, `mul` the weight of the next digit. -/
def vlqDecodeGo : Nat → Nat → Str → Option (Int × Str)
  | _, _, [] => none
  | acc, mul, c :: cs =>
    match b64Val c with
    | none => none
    | some d =>
      if d < 32 then some (unzigzag (acc + d * mul), cs)
      else vlqDecodeGo (acc + (d - 32) * mul) (mul * 32) cs

/-- `vlq::decode(&mut iter)`: value and remaining input; `none` is an `Err` (unexpected end or a
character outside the base64 alphabet). -/
def vlqDecode (s : Str) : Option (Int × Str) := vlqDecodeGo 0 1 s

end WS
