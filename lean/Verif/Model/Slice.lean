import Verif.Model.Slm
import Verif.Model.SmNode
import Verif.Model.Sources
/-!
# Byte level: `StringSlice`

Slices with pointer and length in bytes, and the functions that cut texts with them, once more at
this level. Every slice that is made is checked: a slice that leaves its buffer or cuts a character
is the error `boundary`. `Verif/Props/C34.lean` proves that the error does not occur and that the
results are those of the models over characters.
-/

namespace WS

/-- The UTF-8 bytes of a text (`as_bytes`, `src/types/string_slice.rs:67-70`). -/
def enc (s : Str) : List UInt8 := s.flatMap String.utf8EncodeChar

/-- `StringSlice`, `src/types/string_slice.rs:12-13`: the buffer, the pointer relative to the start of
the buffer, the length; both in bytes. Integers stand for the machine words: arithmetic that would
wrap around gives a negative number, which is rejected. -/
structure Slice where
  buf : Str
  ptr : Int
  len : Int
  deriving DecidableEq, Repr

/-- What a slice designates: `from_utf8_unchecked(from_raw_parts(ptr, len))`,
`src/types/string_slice.rs:62-70`. An error unless both ends lie in the buffer and at boundaries of
characters. -/
def Slice.read (s : Slice) : M Str :=
  if s.ptr < 0 ∨ s.len < 0 then .error .boundary
  else
    match splitAtByte s.buf s.ptr.toNat with
    | none => .error .boundary
    | some (_, r) =>
      match splitAtByte r s.len.toNat with
      | none => .error .boundary
      | some (t, _) => .ok t

/-- A slice just made, checked. -/
def Slice.check (s : Slice) : M Slice :=
  match s.read with
  | .error e => .error e
  | .ok _ => .ok s

/-- `StringSlice::from`, `src/types/string_slice.rs:124-149`. -/
def Slice.ofStr (s : Str) : Slice := ⟨s, 0, blen s⟩

/-- `StringSlice::substr`, `src/types/string_slice.rs:25-33`. -/
def Slice.substr (s : Slice) (start stop : Nat) : M Slice :=
  let start := min (start : Int) s.len
  let stop := min (stop : Int) s.len
  Slice.check ⟨s.buf, s.ptr + start, stop - start⟩

/-- `StringSlice::split_at`, `src/types/string_slice.rs:35-43`. -/
def Slice.splitAt (s : Slice) (mid : Nat) : M (Slice × Slice) :=
  let mid := min (mid : Int) s.len
  match Slice.check ⟨s.buf, s.ptr, mid⟩, Slice.check ⟨s.buf, s.ptr + mid, s.len - mid⟩ with
  | .ok a, .ok b => .ok (a, b)
  | .error e, _ => .error e
  | .ok _, .error e => .error e

/-- `StringSlice::offset`, `src/types/string_slice.rs:53-55`. -/
def Slice.offset (s : Slice) (l : Int) : M Slice := Slice.check ⟨s.buf, s.ptr + l, s.len - l⟩

/-- `Split`, `src/types/string_slice.rs:167-190`. -/
structure SSplit where
  isNext : Bool
  rest : Option Slice
  pat : UInt8
  keep : Bool
  deriving DecidableEq, Repr

/-- `Split::new`, `src/types/string_slice.rs:175-182`. -/
def SSplit.new (s : Slice) (pat : UInt8) (keep : Bool) : SSplit := ⟨true, some s, pat, keep⟩

/-- `Split::rest`, `src/types/string_slice.rs:184-189`. -/
def SSplit.takeRest (it : SSplit) : Option Slice × SSplit :=
  (it.rest, { it with rest := none, isNext := false })

/-- `Split::next`, `src/types/string_slice.rs:194-217`. -/
def SSplit.next (it : SSplit) : M (Option Slice × SSplit) :=
  if it.isNext then
    match it.rest with
    | none => .error .unwrap
    | some s =>
      match s.read with
      | .error e => .error e
      | .ok t =>
        let pos := (enc t).idxOf it.pat
        if pos < (enc t).length then
          if it.keep then
            match s.splitAt (pos + 1) with
            | .error e => .error e
            | .ok (a, r) => .ok (some a, { it with rest := some r })
          else
            match s.splitAt pos with
            | .error e => .error e
            | .ok (a, r) =>
              match r.offset 1 with
              | .error e => .error e
              | .ok r => .ok (some a, { it with rest := some r })
        else .ok (some s, { it with isNext := false, rest := none })
  else .ok (none, it)

/-! ## `src/source_list_map/from_string_with_source_map.rs` -/

/-- The loop over mapping lines, lines 19-90. Inside a mapping line the bytes are only read; the
segment loop over characters is taken over. The first argument bounds the number of iterations. -/
def sLines (sources contents : List Int) : Nat → LfState → SSplit → SSplit → M (LfState × SSplit)
  | 0, _, _, _ => .error .fuel
  | fuel + 1, st, lines, maps =>
    match maps.next with
    | .error e => .error e
    | .ok (none, _) => .ok (st, lines)
    | .ok (some m, maps) =>
      match lines.next with
      | .error e => .error e
      | .ok (none, lines) => sLines sources contents fuel st lines maps
      | .ok (some l, lines) =>
        match m.read, l.read with
        | .error e, _ => .error e
        | .ok _, .error e => .error e
        | .ok m, .ok l =>
          match lfLine sources contents st l m with
          | .error e => .error e
          | .ok st => sLines sources contents fuel st lines maps

/-- The loop over the remaining lines, lines 92-103, with the two backward offsets. -/
def sRest : Nat → LfState → SSplit → M LfState
  | 0, _, _ => .error .fuel
  | fuel + 1, st, lines =>
    match lines.next with
    | .error e => .error e
    | .ok (none, _) => .ok st
    | .ok (some line, lines) =>
      match line.offset (-1) with
      | .error e => .error e
      | .ok back =>
        match back.read, line.read with
        | .error e, _ => .error e
        | .ok _, .error e => .error e
        | .ok b, .ok l =>
          if isBlank b then sRest fuel (lfAddCode st l) lines
          else
            match lines.takeRest with
            | (none, lines) => sRest fuel (lfAddCode st l) lines
            | (some last, lines) =>
              match last.offset (-line.len) with
              | .error e => .error e
              | .ok last =>
                match last.read with
                | .error e => .error e
                | .ok t => sRest fuel (lfAddCode st t) lines

/-- `from_string_with_source_map`, lines 6-105. -/
def sSlmFromString (code : Slice) (sources contents : List Int) (mappings : Slice) : M Slm :=
  match sLines sources contents (mappings.len.toNat + 2)
      { rev := [], curLine := 1, curSource := 0, nodeLine := 0 }
      (SSplit.new code 10 true) (SSplit.new mappings 59 false) with
  | .error e => .error e
  | .ok (st, lines) =>
    match sRest (code.len.toNat + 2) st lines with
    | .error e => .error e
    | .ok st => .ok st.rev.reverse

/-! ## `src/utils.rs` -/

/-- The loop of `src/utils.rs:59-65` over `char_indices`: the position after the `n`-th character, or
the number of characters missing. -/
def charPos : Str → Nat → Nat → Nat ⊕ Nat
  | [], _, pos => .inr pos
  | c :: cs, bp, pos => if pos = 1 then .inl (bp + c.utf8Size) else charPos cs (bp + c.utf8Size) (pos - 1)

/-- Result of `split_string_slice`: `Ok` or `Err`, `src/utils.rs:44`. -/
inductive SSplitRes where
  | ok (l r : Slice) (lSbc rSbc : Bool)
  | err (missing : Nat) (s : Slice) (sbc : Bool)
  deriving DecidableEq, Repr

/-- `split_string_slice`, `src/utils.rs:40-74`. -/
def sSplitStr (s : Slice) (pos : Int) (sbc : Bool) : M SSplitRes :=
  if pos ≤ 0 then .ok (.ok (Slice.ofStr []) s true sbc)
  else
    match s.read with
    | .error e => .error e
    | .ok t =>
      if sbc then
        if pos < s.len then
          match s.splitAt pos.toNat with
          | .error e => .error e
          | .ok (l, r) => .ok (.ok l r true sbc)
        else .ok (.err (pos - s.len).toNat s sbc)
      else
        match charPos t 0 pos.toNat with
        | .inr missing => .ok (.err missing s sbc)
        | .inl split =>
          match s.splitAt split with
          | .error e => .error e
          | .ok (l, r) => .ok (.ok l r (split == 0) sbc)

/-! ## `src/source_map/from_string_with_source_map.rs` -/

/-- The loop of lines 18-33 over `char_indices`: lines found, start of the line, flag. -/
def sCodeScan (code : Slice) : Str → Nat → Nat → Bool → M (List (Slice × Bool) × Nat × Bool)
  | [], _, start, sbc => .ok ([], start, sbc)
  | c :: cs, p, start, sbc =>
    let sbc := if c.utf8Size > 1 then false else sbc
    if c = '\n' then
      match code.substr start (p + 1) with
      | .error e => .error e
      | .ok l =>
        match sCodeScan code cs (p + c.utf8Size) (p + 1) true with
        | .error e => .error e
        | .ok (ls, start, b) => .ok ((l, sbc) :: ls, start, b)
    else sCodeScan code cs (p + c.utf8Size) start sbc

/-- The line table, lines 12-41. -/
def sCodeLines (code : Slice) : M (List (Slice × Bool)) :=
  match code.read with
  | .error e => .error e
  | .ok t =>
    match sCodeScan code t 0 0 true with
    | .error e => .error e
    | .ok (ls, start, sbc) =>
      if (start : Int) = code.len then .ok ls
      else
        match code.substr start code.len.toNat with
        | .error e => .error e
        | .ok l => .ok (ls ++ [(l, sbc)])

/-- `next_line`, lines 46-49. -/
structure SNextLine where
  text : Slice
  exist : Bool
  sbc : Bool
  deriving DecidableEq, Repr

/-- `line_iter.next().unwrap_or(…)`, lines 46-49. -/
def sPopLine : List (Slice × Bool) → SNextLine × List (Slice × Bool)
  | [] => (⟨Slice.ofStr [], false, true⟩, [])
  | (l, b) :: ls => (⟨l, true, b⟩, ls)

/-- Loop state. -/
structure SFsState where
  children : List SmNode
  lastPos : Nat × Nat
  lastMapping : Option Mapping
  next : SNextLine
  lines : List (Slice × Bool)
  deriving Repr

/-- Lines 81-87; see `skipLines`. Strings of the node tree are held as their characters. -/
def sSkipLines : Nat → SFsState → M SFsState
  | 0, st => .ok st
  | n + 1, st =>
    match st.next.text.read with
    | .error e => .error e
    | .ok t =>
      let (nx, ls) := sPopLine st.lines
      sSkipLines n { st with children := addStrChild st.children t, next := nx, lines := ls,
                             lastPos := (st.lastPos.1 + 1, st.lastPos.2) }

/-- `match utils::split_string_slice(…) { Ok(sp) => sp, Err((_, s, c)) => (s, StringSlice::new(), c,
true) }`, lines 63-70, 89-96. -/
def SSplitRes.orAll : SSplitRes → Slice × Slice × Bool × Bool
  | .ok l r a b => (l, r, a, b)
  | .err _ s sbc => (s, Slice.ofStr [], sbc, true)

/-- Lines 81-102; see `fsTail`. -/
def sFsTail (st : SFsState) (m : Mapping) : M SFsState :=
  match sSkipLines (m.generated.1 - st.lastPos.1) st with
  | .error e => .error e
  | .ok st =>
    if st.lastPos.2 < m.generated.2 then
      match sSplitStr st.next.text m.generated.2 st.next.sbc with
      | .error e => .error e
      | .ok r =>
        match r.orAll.1.read with
        | .error e => .error e
        | .ok l =>
          .ok { st with children := addStrChild st.children l
                        next := { st.next with text := r.orAll.2.1, sbc := r.orAll.2.2.2 }
                        lastPos := (st.lastPos.1, m.generated.2)
                        lastMapping := some m }
    else .ok { st with lastMapping := some m }

/-- Lines 51-103; see `fsStep`. -/
def sFsStep (st : SFsState) (m : Mapping) : M SFsState :=
  match st.lastMapping with
  | some lm =>
    if st.lastPos.1 < m.generated.1 then
      match st.next.text.read with
      | .error e => .error e
      | .ok t =>
        let (nx, ls) := sPopLine st.lines
        sFsTail { st with children := addMappingWithCode st.children (some lm) t
                          next := nx, lines := ls
                          lastPos := (st.lastPos.1 + 1, 0) } m
    else
      match sSplitStr st.next.text ((m.generated.2 : Int) - st.lastPos.2) st.next.sbc with
      | .error e => .error e
      | .ok r =>
        match r.orAll.1.read with
        | .error e => .error e
        | .ok l =>
          .ok { st with children := addMappingWithCode st.children (some lm) l
                        next := { st.next with text := r.orAll.2.1, sbc := r.orAll.2.2.2 }
                        lastPos := (st.lastPos.1, m.generated.2)
                        lastMapping := some m }
  | none => sFsTail st m

/-- Lines 51-103; see `fsLoop`. -/
def sFsLoop : SFsState → List Mapping → M SFsState
  | st, [] => .ok st
  | st, m :: ms =>
    match sFsStep st m with
    | .error e => .error e
    | .ok st => sFsLoop st ms

/-- Texts of slices. -/
def readAll : List (Slice × Bool) → M (List Str)
  | [] => .ok []
  | (l, _) :: ls =>
    match l.read, readAll ls with
    | .error e, _ => .error e
    | .ok _, .error e => .error e
    | .ok t, .ok ts => .ok (t :: ts)

/-- Lines 105-120; see `fsFinish`. -/
def sFsFinish (st : SFsState) : M (List SmNode) :=
  if st.next.exist then
    match st.next.text.read, readAll st.lines with
    | .error e, _ => .error e
    | .ok _, .error e => .error e
    | .ok t, .ok ts =>
      match st.lastMapping with
      | some lm => .ok (addStrChild (addMappingWithCode st.children (some lm) t) ts.flatten)
      | none => .ok (addStrChild st.children (t ++ ts.flatten))
  else .ok st.children

/-- `from_string_with_source_map_generator`, lines 6-123. -/
def sFromString (code : Slice) (g : Generator) : M SmNode :=
  match sCodeLines code with
  | .error e => .error e
  | .ok ls =>
    let (nx, ls) := sPopLine ls
    match sFsLoop { children := [], lastPos := (1, 0), lastMapping := none, next := nx, lines := ls }
        g.mappings.list with
    | .error e => .error e
    | .ok st =>
      match sFsFinish st with
      | .error e => .error e
      | .ok ch => .ok (.node none none none g.contents ch)

/-! ## `src/original_source.rs` -/

/-- Separators of the expression `[^\n\r;{}]*[\n\r;{}]*` as bytes, `src/original_source.rs:8`. -/
def isSepByte (b : UInt8) : Bool := b == 10 || b == 13 || b == 59 || b == 123 || b == 125

/-- End of the match at the start of the line, `src/original_source.rs:53-55`. The expression is
matched on bytes; the match is the longest run of other bytes and the longest run of separators. -/
def matchEnd (bs : List UInt8) : Nat :=
  (bs.takeWhile (!isSepByte ·)).length +
    ((bs.dropWhile (!isSepByte ·)).takeWhile isSepByte).length

/-- The items of a line, `src/original_source.rs:52-58`. -/
def sItems : Nat → Slice → M (List Slice)
  | 0, _ => .error .fuel
  | fuel + 1, line =>
    match line.read with
    | .error e => .error e
    | .ok t =>
      if t.isEmpty then .ok []
      else
        match line.splitAt (matchEnd (enc t)) with
        | .error e => .error e
        | .ok (item, rest) =>
          match sItems fuel rest with
          | .error e => .error e
          | .ok is => .ok (item :: is)

end WS
