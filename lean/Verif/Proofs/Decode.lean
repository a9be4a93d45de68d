import Verif.Proofs.Vlq
import Verif.Proofs.Text
/-! # Decoding step by step -/

namespace WS
open Spec

theorem cut_eq (p : Char) (s : Str) : cut p s = splitDrop p s := by
  induction s with
  | nil => rfl
  | cons c cs ih =>
    rw [cut, splitDrop, ih]
    split
    · rfl
    · cases splitDrop p cs <;> rfl

theorem cut_ne_nil (p : Char) (s : Str) : cut p s ≠ [] := cut_eq p s ▸ splitDrop_ne_nil p s

theorem cut_of_not_mem {p : Char} {s : Str} (h : p ∉ s) : cut p s = [s] := by
  rw [cut_eq, splitDrop_of_not_mem h]

theorem cut_append_sep {p : Char} {x : Str} (h : p ∉ x) (r : Str) :
    cut p (x ++ p :: r) = x :: cut p r := by
  rw [cut_eq, cut_eq, splitDrop_append_sep h]

theorem cut_cons_sep (p : Char) (r : Str) : cut p (p :: r) = [] :: cut p r := by
  rw [cut, if_pos rfl]

/-- Decode the rest `s` of a mappings string in the middle of line `l`. -/
def decodeMid (l : Nat) (a : Acc) (s : Str) : Option (List Seg) :=
  match cut ';' s with
  | [] => some []
  | x :: ls => (readSegs l a (cut ',' x)).bind fun p => (readLines (l + 1) p.2 ls).map (p.1 ++ ·)

theorem decode_eq (s : Str) : decode s = decodeMid 1 {} s := by
  unfold decode decodeMid
  cases h : cut ';' s with
  | nil => exact absurd h (cut_ne_nil _ _)
  | cons x ls =>
    simp only [readLines]
    cases readSegs 1 _ (cut ',' x) with
    | none => rfl
    | some p =>
      obtain ⟨x, a⟩ := p
      simp only [Option.bind_some]
      cases readLines (1 + 1) a ls <;> rfl

theorem readSegs_nil_seg (l : Nat) (a : Acc) (ss : List Str) :
    readSegs l a ([] :: ss) = readSegs l a ss := by
  simp only [readSegs, readSeg, fields_nil]
  cases readSegs l a ss with
  | none => rfl
  | some p => rfl

theorem decodeMid_nil (l : Nat) (a : Acc) : decodeMid l a [] = some [] := by
  simp [decodeMid, cut, readSegs, readSeg, fields_nil, readLines]

/-- A `;` starts the next line at column 0. -/
theorem decodeMid_line (l : Nat) (a : Acc) (s : Str) :
    decodeMid l a (';' :: s) = decodeMid (l + 1) { a with col := 0 } s := by
  unfold decodeMid
  rw [cut_cons_sep]
  have h0 : readSegs l a (cut ',' []) = some ([], a) := by
    simp [cut, readSegs, readSeg, fields_nil]
  simp only [h0, Option.bind_some]
  cases h : cut ';' s with
  | nil => exact absurd h (cut_ne_nil _ _)
  | cons x ls =>
    simp only [readLines]
    cases readSegs (l + 1) { a with col := 0 } (cut ',' x) with
    | none => rfl
    | some p =>
      obtain ⟨y, b⟩ := p
      simp only [Option.bind_some]
      cases readLines (l + 1 + 1) b ls <;> simp

/-- A `,` on its own says nothing. -/
theorem decodeMid_comma (l : Nat) (a : Acc) (s : Str) :
    decodeMid l a (',' :: s) = decodeMid l a s := by
  unfold decodeMid
  rw [cut, if_neg (by decide)]
  cases h : cut ';' s with
  | nil => exact absurd h (cut_ne_nil _ _)
  | cons x ls =>
    simp only
    rw [cut_cons_sep, readSegs_nil_seg]

/-- The end of the input or a separator follows. -/
def AtSep : Str → Prop
  | [] => True
  | c :: _ => c = ',' ∨ c = ';'

theorem cut_append {p : Char} {x : Str} (h : p ∉ x) (s : Str) :
    ∃ y ls, cut p s = y :: ls ∧ cut p (x ++ s) = (x ++ y) :: ls := by
  rcases first_sep p s with hs | ⟨y, r, rfl, hy⟩
  · refine ⟨s, [], cut_of_not_mem hs, cut_of_not_mem ?_⟩
    simp [h, hs]
  · refine ⟨y, cut p r, cut_append_sep hy r, ?_⟩
    rw [← List.append_assoc, cut_append_sep (by simp [h, hy])]

/-- A segment is read, then the rest. -/
theorem decodeMid_seg {l : Nat} {a b : Acc} {x : Str} {y : List Seg} (hx : ',' ∉ x ∧ ';' ∉ x)
    (hr : readSeg l a x = some (y, b)) (s : Str) (hs : AtSep s) :
    decodeMid l a (x ++ s) = (decodeMid l b s).map (y ++ ·) := by
  cases s with
  | nil =>
    rw [List.append_nil, decodeMid_nil, decodeMid, cut_of_not_mem hx.2]
    simp only [cut_of_not_mem hx.1, readSegs, hr, readLines, Option.bind_some, Option.map_some,
      List.append_nil]
  | cons c s =>
    rcases hs with rfl | rfl
    · obtain ⟨z, ls, h1, h2⟩ := cut_append hx.2 (',' :: s)
      have hz : ∃ z', z = ',' :: z' := by
        rw [cut, if_neg (by decide)] at h1
        cases h : cut ';' s with
        | nil => exact absurd h (cut_ne_nil _ _)
        | cons w ws => rw [h] at h1; cases h1; exact ⟨_, rfl⟩
      obtain ⟨z', rfl⟩ := hz
      unfold decodeMid
      rw [h1, h2]
      simp only
      rw [cut_append_sep hx.1, cut_cons_sep, readSegs_nil_seg, readSegs, hr]
      simp only
      cases readSegs l b (cut ',' z') with
      | none => rfl
      | some p =>
        obtain ⟨u, v⟩ := p
        simp only [Option.bind_some]
        cases readLines (l + 1) v ls <;> simp
    · rw [decodeMid_line]
      unfold decodeMid
      rw [cut_append_sep hx.2]
      simp only [cut_of_not_mem hx.1, readSegs, hr, Option.bind_some, List.append_nil]
      cases h : cut ';' s with
      | nil => exact absurd h (cut_ne_nil _ _)
      | cons w ws =>
        simp only [readLines]
        cases readSegs (l + 1) { b with col := 0 } (cut ',' w) with
        | none => rfl
        | some p =>
          obtain ⟨u, v⟩ := p
          simp only [Option.bind_some]
          cases readLines (l + 1 + 1) v ws <;> simp

theorem decodeMid_lines (n : Nat) : ∀ (l : Nat) (a : Acc) (s : Str),
    decodeMid l a (List.replicate n ';' ++ s) =
      decodeMid (l + n) (if n = 0 then a else { a with col := 0 }) s := by
  induction n with
  | zero => intro l a s; simp
  | succ n ih =>
    intro l a s
    rw [List.replicate_succ, List.cons_append, decodeMid_line, ih]
    congr 1
    · omega
    · split <;> simp

end WS
