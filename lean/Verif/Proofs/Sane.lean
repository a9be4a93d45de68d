import Verif.Props.C64
/-! # Trees in which no left-over mapping overrules a later place -/

namespace WS
open Spec

/-- Each string comes from a place not before those of the empty strings directly in front of it; `here`
are the origins of the ones in front of the first. -/
def Sane : List (Option Origin) → List (Str × Option Origin) → Prop
  | _, [] => True
  | here, (t, o) :: L => (∀ p ∈ here, PlaceLe p o) ∧ Sane (if t = [] then o :: here else []) L

/-- The origins of the empty strings at the end. -/
def trailing : List (Option Origin) → List (Str × Option Origin) → List (Option Origin)
  | here, [] => here
  | here, (t, o) :: L => trailing (if t = [] then o :: here else []) L

theorem Sane.sub : ∀ {L : List (Str × Option Origin)} {H H' : List (Option Origin)},
    (∀ p ∈ H', p ≠ none → p ∈ H) → Sane H L → Sane H' L
  | [], _, _, _, _ => trivial
  | (t, o) :: L, H, H', h, hs => by
    refine ⟨fun p hp => ?_, ?_⟩
    · cases p with
      | none => trivial
      | some q => exact hs.1 _ (h _ hp (by simp))
    · refine Sane.sub ?_ hs.2
      intro p hp hne
      split at hp
      · rename_i e
        rw [if_pos e]
        rcases List.mem_cons.1 hp with rfl | hp
        · simp
        · exact List.mem_cons_of_mem _ (h p hp hne)
      · cases hp

theorem sane_append : ∀ {A B : List (Str × Option Origin)} {H : List (Option Origin)},
    Sane H (A ++ B) ↔ Sane H A ∧ Sane (trailing H A) B
  | [], B, H => ⟨fun h => ⟨trivial, h⟩, fun h => h.2⟩
  | (t, o) :: A, B, H => by
    rw [List.cons_append, Sane, Sane, trailing, sane_append, and_assoc]

theorem sane_of_pairwise : ∀ {L : List (Str × Option Origin)} {H : List (Option Origin)},
    (∀ p ∈ H, ∀ l ∈ L, PlaceLe p l.2) → L.Pairwise (fun a b => PlaceLe a.2 b.2) → Sane H L
  | [], _, _, _ => trivial
  | (t, o) :: L, H, h, hp => by
    rw [List.pairwise_cons] at hp
    refine ⟨fun p hm => h p hm (t, o) (by simp), sane_of_pairwise ?_ hp.2⟩
    intro p hm l hl
    split at hm
    · rcases List.mem_cons.1 hm with rfl | hm
      · exact hp.1 l hl
      · exact h p hm l (by simp [hl])
    · cases hm

theorem trailing_quiet : ∀ {L : List (Str × Option Origin)} {H : List (Option Origin)}, Quiet L →
    (∀ p ∈ H, p = none) → ∀ p ∈ trailing H L, p = none
  | [], _, _, h => h
  | (t, o) :: L, H, hq, h => by
    rw [trailing]
    refine trailing_quiet (fun l hl => hq l (by simp [hl])) ?_
    intro p hp
    split at hp
    · rename_i e
      rcases List.mem_cons.1 hp with rfl | hp
      · exact hq (t, p) (by simp) e
      · exact h p hp
    · cases hp

theorem sane_of_quiet : ∀ {L : List (Str × Option Origin)} {H : List (Option Origin)}, Quiet L →
    (∀ p ∈ H, p = none) → Sane H L
  | [], _, _, _ => trivial
  | (t, o) :: L, H, hq, h => by
    refine ⟨fun p hp => by rw [h p hp]; trivial, sane_of_quiet (fun l hl => hq l (by simp [hl])) ?_⟩
    intro p hp
    split at hp
    · rename_i e
      rcases List.mem_cons.1 hp with rfl | hp
      · exact hq (t, p) (by simp) e
      · exact h p hp
    · cases hp

theorem makePrefixed_nil {s pre : Str} {b : Bool} (h : makePrefixed s pre b = []) : s = [] := by
  rw [makePrefixed, prefixLoop_eq, List.append_eq_nil_iff] at h
  exact indentRest_nil h.2

theorem Sane.prefixed (pre : Str) : ∀ {L : List (Str × Option Origin)} {H : List (Option Origin)} {b : Bool},
    Sane H L → Sane H (prefixLeaves pre L b)
  | [], _, _, _ => trivial
  | (s, o) :: L, H, b, h => by
    refine ⟨h.1, ?_⟩
    refine Sane.sub (H := if s = [] then o :: H else []) ?_ (Sane.prefixed pre h.2)
    intro p hp _
    split at hp
    · rename_i e
      rw [if_pos (makePrefixed_nil e)]; exact hp
    · cases hp

/-- It begins with text from nowhere. -/
def Fresh (L : List (Str × Option Origin)) : Prop := ∃ t r, L = (t, none) :: r ∧ t ≠ []

theorem sane_flatten : ∀ {Ls : List (List (Str × Option Origin))} {H : List (Option Origin)},
    (∀ L ∈ Ls, Sane [] L) →
    (∀ (k : Nat) (L : List (Str × Option Origin)), Ls[k]? = some L →
      Quiet L ∨ k + 1 = Ls.length ∨ ∃ L', Ls[k + 1]? = some L' ∧ Fresh L') →
    ((∀ p ∈ H, p = none) ∨ ∃ L, Ls.head? = some L ∧ Fresh L) → Sane H Ls.flatten
  | [], _, _, _, _ => trivial
  | L :: Ls, H, h1, h2, h3 => by
    have hL := h1 L (by simp)
    rw [List.flatten_cons, sane_append]
    have hs : Sane H L ∧ (Quiet L → ∀ p ∈ trailing H L, p = none) := by
      rcases h3 with h3 | ⟨L', e, t, r, rfl, ht⟩
      · refine ⟨Sane.sub (fun p hp hne => absurd (h3 p hp) hne) hL, fun hq => trailing_quiet hq h3⟩
      · simp only [List.head?_cons, Option.some.injEq] at e
        subst e
        refine ⟨⟨fun p _ => by cases p <;> trivial, ?_⟩, fun hq => ?_⟩
        · have := hL.2
          rw [if_neg ht] at this ⊢
          exact this
        · rw [trailing, if_neg ht]
          exact trailing_quiet (fun l hl => hq l (by simp [hl])) (by simp)
    refine ⟨hs.1, ?_⟩
    have rest : ∀ (k : Nat) (M : List (Str × Option Origin)), Ls[k]? = some M →
        Quiet M ∨ k + 1 = Ls.length ∨ ∃ L', Ls[k + 1]? = some L' ∧ Fresh L' := by
      intro k M hM
      rcases h2 (k + 1) M (by simpa using hM) with h | h | h
      · exact .inl h
      · exact .inr (.inl (by simpa using h))
      · exact .inr (.inr (by simpa using h))
    rcases h2 0 L rfl with h | h | ⟨L', h, hf⟩
    · exact sane_flatten (fun M hM => h1 M (by simp [hM])) rest (.inl (hs.2 h))
    · have : Ls = [] := by
        cases Ls with
        | nil => rfl
        | cons _ _ => simp at h
      subst this; trivial
    · refine sane_flatten (fun M hM => h1 M (by simp [hM])) rest (.inr ⟨L', ?_, hf⟩)
      cases Ls with
      | nil => simp at h
      | cons M Ls => simpa using h

/-- What is displayed keeps the places. -/
theorem displayed_sane : ∀ (L : List (Str × Option Origin)) (cur seen : Option Origin)
    (here H : List (Option Origin)), Sane H L → (∀ p ∈ here, p ∈ H) →
    (here ≠ [] → cur ∈ here) →
    (here = [] → ∀ q, cur = some q → ∃ y, seen = some y ∧ Origin.Stands y q) →
    Kept (marked L) (displayed cur seen here L)
  | [], _, _, _, _, _, _, _, _ => trivial
  | (t, o) :: L, cur, seen, here, H, hs, h1, h2, h3 => by
    have hm : marked ((t, o) :: L) = (t.map fun x => (x, o)) ++ marked L := rfl
    have hann1 : ∀ p ∈ (if o = cur then here else o :: here), p ∈ o :: H := by
      intro p hp
      split at hp
      · exact List.mem_cons_of_mem _ (h1 p hp)
      · rcases List.mem_cons.1 hp with rfl | hp
        · simp
        · exact List.mem_cons_of_mem _ (h1 p hp)
    have hann0 : ∀ p ∈ (if o = cur then here else o :: here), PlaceLe p o := by
      intro p hp
      rcases List.mem_cons.1 (hann1 p hp) with rfl | hp
      · exact placeLe_self _
      · exact hs.1 p hp
    have hann2 : (if o = cur then here else o :: here) ≠ [] → o ∈ (if o = cur then here else o :: here) := by
      intro hne
      split
      · rename_i e
        rw [if_pos e] at hne
        rw [e]; exact h2 hne
      · simp
    have hann3 : (if o = cur then here else o :: here) = [] → ∀ q, o = some q →
        ∃ y, seen = some y ∧ Origin.Stands y q := by
      intro he q hq
      split at he
      · rename_i e
        exact h3 he q (by rw [← e]; exact hq)
      · cases he
    rw [displayed, hm]
    by_cases ht : t = []
    · subst ht
      rw [if_pos rfl]
      exact displayed_sane L o seen _ _ (by simpa using hs.2) hann1 hann2 hann3
    · rw [if_neg ht]
      generalize hA : (if o = cur then here else o :: here) = ann at *
      have hout : ∀ q, o = some q → ∃ y, outcome seen ann = some y ∧ Origin.Stands y q := by
        intro q hq
        cases ann with
        | nil => exact hann3 rfl q hq
        | cons p ps =>
          rw [outcome]
          have hle := hann0 _ (latest_mem ps p)
          have hge := latest_top ps p o (hann2 (by simp))
          rw [hq] at hle hge
          cases hy : latest p ps with
          | none => rw [hy] at hge; exact hge.elim
          | some y =>
            rw [hy] at hle hge
            exact ⟨y, rfl, stands_of_notAfter hle hge⟩
      refine (kept_string o t _ hout).append
        (displayed_sane L _ _ [] [] (by have := hs.2; rwa [if_neg ht] at this) (by simp) (fun h => absurd rfl h) ?_)
      intro _ q hq
      unfold leftOver
      by_cases hnl : t.getLast? = some '\n'
      · rw [if_pos hnl] at hq; cases hq
      · rw [if_neg hnl] at hq ⊢
        split
        · exact ⟨q, hq, .rfl' q⟩
        · exact hout q hq

/-- What is displayed are origins of the strings. -/
theorem displayed_from : ∀ (L : List (Str × Option Origin)) (cur seen : Option Origin) (here : List (Option Origin)),
    ∀ p ∈ displayed cur seen here L, p.2 = seen ∨ p.2 ∈ here ∨ p.2 ∈ origins L ∨ p.2 = none
  | [], _, _, _, p, h => by cases h
  | (t, o) :: L, cur, seen, here, p, h => by
    have horig : ∀ x, x ∈ origins L → x ∈ origins ((t, o) :: L) := fun x hx => by
      rw [origins, List.map_cons]; exact List.mem_cons_of_mem _ hx
    have ho : o ∈ origins ((t, o) :: L) := by simp [origins]
    have hann : ∀ x ∈ (if o = cur then here else o :: here), x ∈ here ∨ x ∈ origins ((t, o) :: L) := by
      intro x hx
      split at hx
      · exact .inl hx
      · rcases List.mem_cons.1 hx with rfl | hx
        · exact .inr ho
        · exact .inl hx
    have hout : outcome seen (if o = cur then here else o :: here) = seen ∨
        outcome seen (if o = cur then here else o :: here) ∈ here ∨
        outcome seen (if o = cur then here else o :: here) ∈ origins ((t, o) :: L) := by
      cases hA : (if o = cur then here else o :: here) with
      | nil => exact .inl rfl
      | cons q qs =>
        refine .inr (hann _ ?_)
        rw [hA]; exact latest_mem qs q
    have hshow : ∀ (s : Str) (first : Option Origin) (p : Char × Option Origin), p ∈ showString first o s →
        p.2 = first ∨ p.2 = o := by
      intro s
      induction s with
      | nil => intro first p h; cases h
      | cons c s ih =>
        intro first p h
        rw [showString] at h
        rcases List.mem_cons.1 h with rfl | h
        · exact .inl rfl
        · rcases ih _ p h with h | h
          · split at h
            · exact .inr h
            · exact .inl h
          · exact .inr h
    rw [displayed] at h
    split at h
    · rcases displayed_from L _ _ _ p h with h | h | h | h
      · exact .inl h
      · exact .inr ((hann _ h).imp_right .inl)
      · exact .inr (.inr (.inl (horig _ h)))
      · exact .inr (.inr (.inr h))
    · rcases List.mem_append.1 h with h | h
      · rcases hshow _ _ p h with h | h
        · rw [h]
          rcases hout with k | k | k
          · exact .inl k
          · exact .inr (.inl k)
          · exact .inr (.inr (.inl k))
        · rw [h]; exact .inr (.inr (.inl ho))
      · rcases displayed_from L _ _ _ p h with h | h | h | h
        · rw [h, leftOver]
          split
          · exact .inr (.inr (.inr rfl))
          · split
            · exact .inr (.inr (.inl ho))
            · rcases hout with k | k | k
              · exact .inl k
              · exact .inr (.inl k)
              · exact .inr (.inr (.inl k))
        · cases h
        · exact .inr (.inr (.inl (horig _ h)))
        · exact .inr (.inr (.inr h))

end WS
