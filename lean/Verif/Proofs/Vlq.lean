import Verif.Model.Vlq
import Verif.Spec.SourceMap
/-! # VLQ numbers: the encoder and the decoder against the specification -/

namespace WS
open Spec

theorem b64Val_b64Char {n : Nat} (h : n < 64) : b64Val (b64Char n) = some n := by
  have : ∀ n : Fin 64, b64Val (b64Char n.1) = some n.1 := by decide
  exact this ⟨n, h⟩

theorem b64Char_of_val {c : Char} {n : Nat} (h : b64Val c = some n) : n < 64 ∧ b64Char n = c := by
  have hc : Char.ofNat c.toNat = c := Char.ofNat_toNat c
  unfold b64Val at h
  dsimp only at h
  generalize c.toNat = k at h hc
  subst hc
  split at h
  · rename_i hk; simp at hk; cases h
    refine ⟨by omega, ?_⟩
    rw [b64Char, if_pos (by omega)]; congr 1; omega
  · split at h
    · rename_i hk; simp at hk; cases h
      refine ⟨by omega, ?_⟩
      rw [b64Char, if_neg (by omega), if_pos (by omega)]; congr 1; omega
    · split at h
      · rename_i hk; simp at hk; cases h
        refine ⟨by omega, ?_⟩
        rw [b64Char, if_neg (by omega), if_neg (by omega), if_pos (by omega)]; congr 1; omega
      · split at h
        · rename_i hk; cases h; subst hk; exact ⟨by omega, rfl⟩
        · split at h
          · rename_i hk; cases h; subst hk; exact ⟨by omega, rfl⟩
          · cases h

theorem alphabet_mem : ∀ c ∈ alphabet, digit c = b64Val c := by decide

theorem digit_eq (c : Char) : digit c = b64Val c := by
  by_cases h : c ∈ alphabet
  · exact alphabet_mem c h
  · have hn : digit c = none := by
      have : alphabet.idxOf c = alphabet.length := by
        have := List.idxOf_lt_length_iff (a := c) (l := alphabet)
        have h2 := List.idxOf_le_length (a := c) (l := alphabet)
        simp only [h, iff_false] at this
        omega
      rw [digit, this]; rfl
    rw [hn]
    cases hv : b64Val c with
    | none => rfl
    | some n =>
      have ⟨h1, h2⟩ := b64Char_of_val hv
      have : ∀ n : Fin 64, b64Char n.1 ∈ alphabet := by decide +kernel
      exact absurd (h2 ▸ this ⟨n, h1⟩) h

theorem digit_lt {c : Char} {n : Nat} (h : digit c = some n) : n < 64 :=
  (b64Char_of_val (digit_eq c ▸ h)).1

theorem naturals_cons (c : Char) (s : Str) : naturals (c :: s) =
    (digit c).bind fun d => (naturals s).bind fun ns =>
      if d < 32 then some (d :: ns)
      else match ns with
        | n :: ns => some ((d - 32 + 32 * n) :: ns)
        | [] => none := by
  rw [naturals]
  cases digit c <;> cases naturals s <;> rfl

theorem naturals_vlqDigits (s : Str) (ns : List Nat) (hs : naturals s = some ns) :
    ∀ f u, u ≤ f → naturals (vlqDigits f u ++ s) = some (u :: ns) := by
  intro f
  induction f with
  | zero =>
    intro u hu
    have : u = 0 := by omega
    subst this
    rw [vlqDigits, List.singleton_append, naturals_cons, digit_eq, b64Val_b64Char (by omega), hs]
    simp
  | succ f ih =>
    intro u hu
    rw [vlqDigits]
    split
    · rename_i h
      rw [List.singleton_append, naturals_cons, digit_eq, b64Val_b64Char (by omega), hs]
      simp [h]
    · rw [List.cons_append, naturals_cons, digit_eq, b64Val_b64Char (by omega),
        ih (u / 32) (by omega)]
      simp only [Option.bind_some]
      rw [if_neg (by omega)]
      simp only [Option.some.injEq, List.cons.injEq, and_true]
      omega

theorem signed_zigzag (v : Int) : signed (zigzag v) = v := by
  unfold signed zigzag
  split <;> split <;> omega

theorem signed_eq (u : Nat) : signed u = unzigzag u := by
  unfold signed unzigzag
  rfl

theorem naturals_encode (v : Int) (s : Str) (ns : List Nat) (hs : naturals s = some ns) :
    naturals (vlqEncode v ++ s) = some (zigzag v :: ns) :=
  naturals_vlqDigits s ns hs _ _ (Nat.le_refl _)

theorem fields_nil : fields [] = some [] := rfl

theorem fields_encode (v : Int) (s : Str) (xs : List Int) (hs : fields s = some xs) :
    fields (vlqEncode v ++ s) = some (v :: xs) := by
  unfold fields at hs ⊢
  cases hn : naturals s with
  | none => rw [hn] at hs; cases hs
  | some ns =>
    rw [hn] at hs
    rw [naturals_encode v s ns hn]
    simp only [Option.map_some, Option.some.injEq] at hs ⊢
    rw [List.map_cons, signed_zigzag, hs]

/-- The decoder of the crate reads the first number. -/
theorem vlqDecodeGo_naturals : ∀ (s : Str) (n : Nat) (ns : List Nat), naturals s = some (n :: ns) →
    ∃ rest, naturals rest = some ns ∧ rest.length < s.length ∧ (∀ x ∈ rest, x ∈ s) ∧
      ∀ acc mul t, vlqDecodeGo acc mul (s ++ t) = some (signed (acc + n * mul), rest ++ t) := by
  intro s
  induction s with
  | nil => intro n ns h; simp [naturals] at h
  | cons c cs ih =>
    intro n ns h
    rw [naturals_cons] at h
    cases hd : digit c with
    | none => rw [hd] at h; cases h
    | some d =>
    cases hms : naturals cs with
    | none => rw [hd, hms] at h; cases h
    | some ms =>
      simp only [hd, hms, Option.bind_some] at h
      split at h
      · rename_i hlt
        cases h
        refine ⟨cs, hms, by simp, fun x hx => List.mem_cons_of_mem _ hx, fun acc mul t => ?_⟩
        rw [List.cons_append, vlqDecodeGo, ← digit_eq, hd]
        simp [hlt, signed_eq]
      · rename_i hge
        cases ms with
        | nil => cases h
        | cons m ms' =>
          cases h
          obtain ⟨rest, h1, h2, h3, h4⟩ := ih m ns hms
          refine ⟨rest, h1, by simp; omega, fun x hx => List.mem_cons_of_mem _ (h3 x hx),
            fun acc mul t => ?_⟩
          rw [List.cons_append, vlqDecodeGo, ← digit_eq, hd]
          simp only [hge, if_false]
          rw [h4]
          simp only [Option.some.injEq, Prod.mk.injEq, and_true]
          congr 1
          grind

theorem vlqDecode_fields {s : Str} {x : Int} {xs : List Int} (h : fields s = some (x :: xs)) :
    ∃ rest, fields rest = some xs ∧ rest.length < s.length ∧ (∀ y ∈ rest, y ∈ s) ∧
      ∀ t, vlqDecode (s ++ t) = some (x, rest ++ t) := by
  unfold fields at h
  cases hn : naturals s with
  | none => rw [hn] at h; cases h
  | some ns =>
    rw [hn] at h
    cases ns with
    | nil => simp at h
    | cons n ns =>
      simp only [Option.map_some, List.map_cons, Option.some.injEq, List.cons.injEq] at h
      obtain ⟨rest, h1, h2, h3, h4⟩ := vlqDecodeGo_naturals s n ns hn
      refine ⟨rest, by rw [fields, h1, Option.map_some, h.2], h2, h3, fun t => ?_⟩
      rw [vlqDecode, h4]
      simp [h.1]

theorem fields_eq_nil {s : Str} (h : fields s = some []) : s = [] := by
  unfold fields at h
  cases s with
  | nil => rfl
  | cons c cs =>
    rw [naturals_cons] at h
    cases hd : digit c <;> cases hn : naturals cs <;>
      simp only [hd, hn, Option.bind_some, Option.bind_none] at h
    · cases h
    · cases h
    · cases h
    · split at h
      · simp at h
      · split at h <;> simp at h

/-- Characters of a well-formed segment are digits. -/
theorem digit_of_naturals : ∀ {s : Str} {ns : List Nat}, naturals s = some ns →
    ∀ c ∈ s, (digit c).isSome = true := by
  intro s
  induction s with
  | nil => intro ns _ c hc; cases hc
  | cons a s ih =>
    intro ns h c hc
    rw [naturals_cons] at h
    cases hd : digit a with
    | none => rw [hd] at h; cases h
    | some d =>
      cases hn : naturals s with
      | none => rw [hd, hn] at h; cases h
      | some ms =>
        rcases List.mem_cons.1 hc with rfl | hc
        · rw [hd]; rfl
        · exact ih hn c hc

theorem digit_of_fields {s : Str} {xs : List Int} (h : fields s = some xs) :
    ∀ c ∈ s, (digit c).isSome = true := by
  unfold fields at h
  cases hn : naturals s with
  | none => rw [hn] at h; cases h
  | some ns => exact digit_of_naturals hn

theorem sep_of_fields {s : Str} {xs : List Int} (h : fields s = some xs) : ',' ∉ s ∧ ';' ∉ s := by
  refine ⟨fun hc => ?_, fun hc => ?_⟩
  · have := digit_of_fields h _ hc
    revert this; decide
  · have := digit_of_fields h _ hc
    revert this; decide

theorem vlqEncode_fields (v : Int) : fields (vlqEncode v) = some [v] := by
  have := fields_encode v [] [] rfl
  simpa using this

end WS
