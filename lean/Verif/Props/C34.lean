import Verif.Proofs.SliceNode
/-!
# C34 String slices stay inside their buffer

The slicing operations check every slice they make (`Verif/Model/Slice.lean`): an ill-formed slice is
the error `boundary`. The theorems say that none of the functions that cut texts with slices runs
into it, whatever the code and the map, and that what they compute is what the models over
characters compute.
-/

namespace WS
open Spec

/-- A range of bytes of the text, both ends at boundaries of characters. -/
def Spec.InText (text : Str) (start len : Int) (part : Str) : Prop :=
  ∃ before after, text = before ++ part ++ after ∧
    start = (before.flatMap String.utf8EncodeChar).length ∧
    len = (part.flatMap String.utf8EncodeChar).length

/-- The check accepts exactly the slices that designate a range of the buffer, at boundaries. -/
theorem C34_check (s : Slice) (t : Str) : s.read = .ok t ↔ InText s.buf s.ptr s.len t := by
  constructor
  · intro h
    obtain ⟨pre, post, hb, hp, hl⟩ := Slice.at_of_read h
    exact ⟨pre, post, by simp [hb], by rw [hp]; exact congrArg _ (enc_length pre).symm,
      by rw [hl]; exact congrArg _ (enc_length t).symm⟩
  · rintro ⟨pre, post, hb, hp, hl⟩
    exact Slice.At.read (pre := pre) ⟨post, by simp [hb],
      by rw [hp]; exact congrArg _ (enc_length pre), by rw [hl]; exact congrArg _ (enc_length t)⟩

theorem check_ok {s x : Slice} (h : s.check = .ok x) : x = s ∧ ∃ t, s.read = .ok t := by
  simp only [Slice.check] at h
  split at h
  · cases h
  · rename_i t ht
    cases h
    exact ⟨rfl, t, ht⟩

/-- A slice made by one of the three operations lies in the buffer it was cut from, at boundaries. -/
theorem C34_operations (s x y : Slice) (a b : Nat) (l : Int) :
    (s.substr a b = .ok x → x.buf = s.buf ∧ ∃ t, InText s.buf x.ptr x.len t) ∧
    (s.splitAt a = .ok (x, y) → (x.buf = s.buf ∧ ∃ t, InText s.buf x.ptr x.len t) ∧
      y.buf = s.buf ∧ ∃ t, InText s.buf y.ptr y.len t) ∧
    (s.offset l = .ok x → x.buf = s.buf ∧ ∃ t, InText s.buf x.ptr x.len t) := by
  refine ⟨fun h => ?_, fun h => ?_, fun h => ?_⟩
  · obtain ⟨rfl, t, ht⟩ := check_ok h
    exact ⟨rfl, t, (C34_check _ _).1 ht⟩
  · simp only [Slice.splitAt] at h
    split at h
    · rename_i h1 h2
      cases h
      obtain ⟨rfl, t, ht⟩ := check_ok h1
      obtain ⟨rfl, u, hu⟩ := check_ok h2
      exact ⟨⟨rfl, t, (C34_check _ _).1 ht⟩, rfl, u, (C34_check _ _).1 hu⟩
    · cases h
    · cases h
  · obtain ⟨rfl, t, ht⟩ := check_ok h
    exact ⟨rfl, t, (C34_check _ _).1 ht⟩

/-! The check has an effect: stepping before the start of the buffer and cutting a character are
errors. -/

example : (Slice.ofStr "aé".toList).offset (-1) = .error .boundary := by decide +kernel
example : (Slice.ofStr "aé".toList).splitAt 2 = .error .boundary := by decide +kernel
example : (Slice.ofStr "aé".toList).substr 2 3 = .error .boundary := by decide +kernel

theorem lfSegment_no_boundary (sources contents : List Int) (line : Str) (added : Bool) (st : LfState)
    (rest : Str) : lfSegment sources contents line added st rest ≠ .error .boundary := by
  intro h
  simp only [lfSegment] at h
  repeat' split at h
  all_goals first | cases h | skip
  all_goals
    rename_i e
    repeat' split at e
    all_goals cases e

theorem lfLines_no_boundary (sources contents : List Int) :
    ∀ (ms : List Str) (st : LfState) (ls : List Str),
    lfLines sources contents st ls ms ≠ .error .boundary := by
  have seg : ∀ (fuel : Nat) (line : Str) (added : Bool) (st : LfState) (rest : Str),
      lfSegments sources contents line fuel added st rest ≠ .error .boundary := by
    intro fuel
    induction fuel with
    | zero => intro line added st rest h; cases rest <;> simp [lfSegments] at h
    | succ fuel ih =>
      intro line added st rest h
      cases rest with
      | nil => simp [lfSegments] at h
      | cons c cs =>
        simp only [lfSegments] at h
        split at h
        · rename_i e he
          cases h
          exact lfSegment_no_boundary _ _ _ _ _ _ he
        · exact ih _ _ _ _ h
  have line : ∀ (st : LfState) (l m : Str), lfLine sources contents st l m ≠ .error .boundary := by
    intro st l m h
    simp only [lfLine] at h
    split at h
    · cases h
    · split at h
      · rename_i e he
        cases h
        exact seg _ _ _ _ _ he
      · cases h
  intro ms
  induction ms with
  | nil => intro st ls h; simp [lfLines] at h
  | cons m ms ih =>
    intro st ls h
    cases ls with
    | nil => simp only [lfLines] at h; exact ih _ _ h
    | cons l ls =>
      simp only [lfLines] at h
      split at h
      · rename_i e he
        cases h
        exact line _ _ _ he
      · exact ih _ _ h

/-- The list map reader, on any code and any mapping string, with slices anywhere in their buffers:
every slice it makes (lines, mapping pieces, the slice one byte before a line, the rest moved back to
the start of the line) lies in its buffer at boundaries, and the result is the one of the model over
characters. -/
theorem C34_list_reader (code mappings : Slice) (c m : Str) (sources contents : List Int)
    (hc : code.read = .ok c) (hm : mappings.read = .ok m) :
    sSlmFromString code sources contents mappings ≠ .error .boundary ∧
    sSlmFromString code sources contents mappings = slmFromString c sources contents m := by
  obtain ⟨pre, h1⟩ := Slice.at_of_read hc
  obtain ⟨pre', h2⟩ := Slice.at_of_read hm
  have h := sSlmFromString_eq h1 h2 sources contents
  refine ⟨fun e => ?_, h⟩
  rw [h, slmFromString] at e
  split at e
  · rename_i e' he
    cases e
    exact lfLines_no_boundary _ _ _ _ _ he
  · cases e

/-- The column-level reader: all its slices lie in their buffer at boundaries, it answers, and its
result is the one of the model over characters. -/
theorem C34_node_reader (code : Slice) (c : Str) (g : Generator) (hc : code.read = .ok c) :
    (∃ n, sFromString code g = .ok n) ∧ sFromString code g = fromStringWithGenerator c g := by
  have h := sFromString_eq hc g
  obtain ⟨n, hn, _⟩ := fromString_text c g
  exact ⟨⟨n, h.trans hn⟩, h⟩

/-- The items of a line of an original source. -/
theorem C34_items (line : Slice) (t : Str) (h : line.read = .ok t) :
    ∃ items, sItems (t.length + 1) line = .ok items ∧
      items.map Slice.read = (lineItems t.length t).map fun l => (.ok l : M Str) :=
  sItems_eq _ h (Nat.lt_succ_self _)

/-- Cutting at a position given in characters (`replace_source.rs:303`): no character is cut, whatever
the position. -/
theorem C34_cut (s : Slice) (t : Str) (pos : Int) (h : s.read = .ok t) :
    ∃ r, sSplitStr s pos false = .ok r ∧
      r.orAll.1.read = .ok (t.take pos.toNat) ∧ r.orAll.2.1.read = .ok (t.drop pos.toNat) := by
  have h1 := sSplitStr_rel h pos false
  obtain ⟨q, hq, q1, q2, _⟩ := splitStr_sbc (s := t) (sbc := false) (by intro h; cases h) pos
  rw [hq] at h1
  obtain ⟨r, hr, hrel⟩ := h1
  obtain ⟨o1, o2, _⟩ := hrel.orAll
  exact ⟨r, hr, q1 ▸ o1, q2 ▸ o2⟩

/-- All pieces of an iterator, `for piece in s.split(…)`; the first argument bounds their number. -/
def SSplit.collect : Nat → SSplit → M (List Slice)
  | 0, _ => .error .fuel
  | fuel + 1, it =>
    match it.next with
    | .error e => .error e
    | .ok (none, _) => .ok []
    | .ok (some a, it) =>
      match SSplit.collect fuel it with
      | .error e => .error e
      | .ok ls => .ok (a :: ls)

/-- Iterating over the lines of a text (`original_source.rs:40`, `line_to_line_mapped_source.rs:35`,
`prefix_source.rs:14`, `source_list_map/source_node.rs:142`). -/
theorem C34_lines (s : Slice) (t : Str) (h : s.read = .ok t) :
    ∃ ls, (SSplit.new s 10 true).collect (blen t + 2) = .ok ls ∧
      ls.map Slice.read = (splitKeep '\n' t).map fun l => (.ok l : M Str) := by
  obtain ⟨pre, hs⟩ := Slice.at_of_read h
  have key : ∀ (ls : List Str) (P : Str → Prop) (fuel : Nat) (it : SSplit), ls.length < fuel →
      LineIt P it ls → ∃ xs, it.collect fuel = .ok xs ∧
        xs.map Slice.read = ls.map fun l => (.ok l : M Str) := by
    intro ls
    induction ls with
    | nil =>
      intro P fuel it hf hl
      obtain ⟨fuel, rfl⟩ : ∃ k, fuel = k + 1 := ⟨fuel - 1, by simp at hf; omega⟩
      exact ⟨[], by simp only [SSplit.collect, hl.nil], rfl⟩
    | cons l ls ih =>
      intro P fuel it hf hl
      obtain ⟨fuel, rfl⟩ : ∃ k, fuel = k + 1 := ⟨fuel - 1, by simp at hf; omega⟩
      obtain ⟨a, it', pre, h1, h2, _, h3, _⟩ := hl.cons
      obtain ⟨xs, h4, h5⟩ := ih _ fuel it' (by simp at hf; omega) h3
      exact ⟨a :: xs, by simp only [SSplit.collect, h1, h4], by simp [h2.read, h5]⟩
  exact key _ (fun _ => True) _ _ (by have := splitKeep_length_le '\n' t; omega)
    ⟨rfl, rfl, .inr ⟨rfl, s, pre, t, rfl, hs, rfl, trivial⟩⟩

/-! Non-trivial cases: non-ASCII code with more lines than mapping lines, so that both backward offsets
are taken; slices in the middle of larger buffers. -/

example : (sSlmFromString (Slice.ofStr "é;\n\n  \nλ\nx".toList) [3] [4]
      (Slice.ofStr "AAAA".toList)).toOption.map (List.map LNode.text) =
    some ["é;\n\n  \n".toList, "λ\nx".toList] := by
  decide +kernel

example : (⟨"é\né;\nλ;".toList, 3, 4⟩ : Slice).read = .ok "é;\n".toList := by decide +kernel

example : ∃ ls, (SSplit.new ⟨"é\né;\nλ;".toList, 3, 7⟩ 10 true).collect 9 = .ok ls ∧
    ls.map Slice.read = ["é;\n".toList, "λ;".toList].map fun l => (.ok l : M Str) :=
  C34_lines _ "é;\nλ;".toList (by decide +kernel)

end WS
