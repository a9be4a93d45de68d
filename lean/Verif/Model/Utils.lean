import Verif.Model.Text
/-! # `src/utils.rs` -/

namespace WS

/-- `str::split_at(byte position)` used in `src/utils.rs:34`: `none` when the position is not a
character boundary (a panic for `&str`; for `StringSlice::split_at` the code would produce an
ill-formed slice). -/
def splitAtByte : Str → Nat → Option (Str × Str)
  | s, 0 => some ([], s)
  | [], _ + 1 => none
  | c :: cs, n =>
    if c.utf8Size ≤ n then
      match splitAtByte cs (n - c.utf8Size) with
      | some (l, r) => some (c :: l, r)
      | none => none
    else none

/-- Result type of `split_str`/`split_string_slice`: `Ok((left, right, left flag, right flag))` or
`Err((missing, s, flag))` (`src/utils.rs:7,44`). -/
inductive SplitRes where
  | ok (l r : Str) (lSbc rSbc : Bool)
  | err (missing : Nat) (s : Str) (sbc : Bool)
  deriving DecidableEq, Repr

/-- `split_str`, `src/utils.rs:3-37`; `split_string_slice`, `src/utils.rs:40-74`, has the same body.
In the character branch the loop of lines 22-28 leaves `pos = 0` and `split_pos` = bytes of the
first `pos` characters, hence the flag `split_pos == pos` of line 35 compares with 0. -/
def splitStr (s : Str) (pos : Int) (sbc : Bool) : M SplitRes :=
  if pos ≤ 0 then .ok (.ok [] s true sbc)
  else
    let n := pos.toNat
    if sbc then
      if n < blen s then
        match splitAtByte s n with
        | some (l, r) => .ok (.ok l r true sbc)
        | none => .error .boundary
      else .ok (.err (n - blen s) s sbc)
    else
      if n ≤ s.length then
        .ok (.ok (s.take n) (s.drop n) (blen (s.take n) == 0) sbc)
      else .ok (.err (n - s.length) s sbc)

/-- `match utils::split_… { Ok(sp) => sp, Err((_, s, sbc)) => (s, "", sbc, true) }`:
`src/replace_source.rs:67-74`, `src/source_map/from_string_with_source_map.rs:63-70,89-96`. -/
def SplitRes.orAll : SplitRes → Str × Str × Bool × Bool
  | .ok l r a b => (l, r, a, b)
  | .err _ s sbc => (s, [], sbc, true)

end WS
