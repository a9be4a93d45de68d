import Verif.Spec.Node
import Verif.Proofs.Generator
/-! # The walk over a node tree records the right mappings -/

namespace WS
open Spec

/-- Generated position order. -/
def PosLt (p q : Nat × Nat) : Prop := p.1 < q.1 ∨ (p.1 = q.1 ∧ p.2 < q.2)

theorem pointAt_snoc (ps : List Point) (q : Point) (l c : Nat) :
    pointAt (ps ++ [q]) l c = if q.line = l ∧ q.col ≤ c then some q else pointAt ps l c := by
  induction ps with
  | nil => simp [pointAt]
  | cons p ps ih =>
    rw [List.cons_append, pointAt, ih, pointAt]
    by_cases h : q.line = l ∧ q.col ≤ c
    · simp only [if_pos h]
    · simp only [if_neg h]

/-- A point after the position does not matter. -/
theorem lookup_snoc_later {ps : List Point} {q : Point} {l c : Nat}
    (h : PosLt (l, c) (q.line, q.col)) : lookup (ps ++ [q]) l c = lookup ps l c := by
  unfold lookup
  rw [pointAt_snoc, if_neg]
  rintro ⟨h1, h2⟩
  unfold PosLt at h
  simp only at h
  omega

theorem lookup_snoc_here {ps : List Point} {q : Point} {l c : Nat} (h1 : q.line = l)
    (h2 : q.col ≤ c) : lookup (ps ++ [q]) l c = q.origin := by
  unfold lookup
  rw [pointAt_snoc, if_pos ⟨h1, h2⟩]; rfl

/-- No point on the line: nothing known. -/
theorem lookup_none {ps : List Point} {l c : Nat} (h : ∀ p ∈ ps, p.line ≠ l) :
    lookup ps l c = none := by
  induction ps with
  | nil => rfl
  | cons p ps ih =>
    have := ih (fun q hq => h q (by simp [hq]))
    unfold lookup at this ⊢
    rw [pointAt]
    split
    · rename_i q hq; rw [hq] at this; exact this
    · rw [if_neg (fun hh => h p (by simp) hh.1)]; rfl

/-- Moving right past all points of the line changes nothing. -/
theorem lookup_right {ps : List Point} {l c : Nat} (h : ∀ p ∈ ps, p.line < l ∨ (p.line = l ∧ p.col ≤ c)) :
    lookup ps l (c + 1) = lookup ps l c := by
  induction ps with
  | nil => rfl
  | cons p ps ih =>
    have hps := ih (fun q hq => h q (by simp [hq]))
    have hp := h p (by simp)
    have hex : pointAt ps l (c + 1) = pointAt ps l c := by
      clear ih hps hp
      have h' := fun q hq => h q (List.mem_cons_of_mem p hq)
      clear h
      induction ps with
      | nil => rfl
      | cons q qs ih =>
        rw [pointAt, pointAt, ih fun x hx => h' x (by simp [hx])]
        have := h' q (by simp)
        split
        · rfl
        · by_cases hc : q.line = l ∧ q.col ≤ c
          · rw [if_pos hc, if_pos ⟨hc.1, by omega⟩]
          · rw [if_neg hc, if_neg (by omega)]
    unfold lookup
    rw [pointAt, pointAt, hex]
    split
    · rfl
    · by_cases hc : p.line = l ∧ p.col ≤ c
      · rw [if_pos hc, if_pos ⟨hc.1, by omega⟩]
      · rw [if_neg hc, if_neg (by omega)]

theorem posFrom_append (p : Nat × Nat) (s t : Str) : posFrom p (s ++ t) = posFrom (posFrom p s) t := by
  unfold posFrom; rw [List.foldl_append]

theorem posAfter_snoc (s : Str) (c : Char) : posAfter (s ++ [c]) = advance (posAfter s) c := by
  unfold posAfter; rw [posFrom_append]; rfl

theorem advance_lt (p : Nat × Nat) (c : Char) : PosLt p (advance p c) := by
  unfold advance PosLt
  split <;> simp

theorem PosLt.trans {a b c : Nat × Nat} (h1 : PosLt a b) (h2 : PosLt b c) : PosLt a c := by
  unfold PosLt at *; omega

theorem posFrom_lt (p : Nat × Nat) {s : Str} (hs : s ≠ []) : PosLt p (posFrom p s) := by
  induction s generalizing p with
  | nil => exact absurd rfl hs
  | cons c s ih =>
    have h1 := advance_lt p c
    cases s with
    | nil => exact h1
    | cons d s => exact h1.trans (ih (advance p c) (by simp))

/-- Marks and points up to a position. -/
theorem attributes_snoc {ps : List Point} {ms : Marked} {c : Char} {o : Option Origin}
    (h : Attributes ps ms)
    (ho : lookup ps (posAfter (ms.map Prod.fst)).1 (posAfter (ms.map Prod.fst)).2 = o) :
    Attributes ps (ms ++ [(c, o)]) := by
  intro k c' o' hk
  rcases Nat.lt_trichotomy k ms.length with hl | hl | hl
  · rw [List.getElem?_append_left hl] at hk
    rw [List.take_append_of_le_length (Nat.le_of_lt hl)]
    exact h k c' o' hk
  · subst hl
    simp at hk
    obtain ⟨rfl, rfl⟩ := hk
    simpa using ho
  · rw [List.getElem?_append_right (Nat.le_of_lt hl)] at hk
    have : ∃ j, k - ms.length = j + 1 := ⟨k - ms.length - 1, by omega⟩
    obtain ⟨j, hj⟩ := this
    rw [hj] at hk
    simp at hk

/-- A further point at or after the end of the text changes nothing for the text. -/
theorem attributes_later {ps : List Point} {ms : Marked} {q : Point} (h : Attributes ps ms)
    (hq : (q.line, q.col) = posAfter (ms.map Prod.fst) ∨
      PosLt (posAfter (ms.map Prod.fst)) (q.line, q.col)) :
    Attributes (ps ++ [q]) ms := by
  intro k c o hk
  rw [lookup_snoc_later]
  · exact h k c o hk
  · have hlt : PosLt (posAfter ((ms.take k).map Prod.fst)) (posAfter (ms.map Prod.fst)) := by
      have e : ms.map Prod.fst = (ms.take k).map Prod.fst ++ (ms.drop k).map Prod.fst := by
        rw [← List.map_append, List.take_append_drop]
      rw [e]
      unfold posAfter
      rw [posFrom_append]
      apply posFrom_lt
      have : k < ms.length := by
        rcases Nat.lt_or_ge k ms.length with h' | h'
        · exact h'
        · rw [List.getElem?_eq_none h'] at hk; cases hk
      intro hnil
      have := congrArg List.length hnil
      simp at this
      omega
    rcases hq with hq | hq
    · rw [hq]; exact hlt
    · exact hlt.trans hq

/-- The points recorded so far. -/
def WalkCtx.points (c : WalkCtx) : List Point := c.map.mappings.list.map Mapping.point

/-- What the walk maintains, with the marked text processed so far; `busy` says that more characters
of the current string follow. -/
structure WalkInv (c : WalkCtx) (code : Str) (ms : Marked) (busy : Bool) : Prop where
  code : c.code = code
  gen : c.gen = posAfter (ms.map Prod.fst)
  ok : c.map.Ok
  truthful : c.map.mappings.Truthful
  lastMax : c.map.mappings.LastMax
  ordered : c.map.mappings.list.Pairwise (fun a b => Mapping.le a b = true)
  bound : ∀ m ∈ c.map.mappings.list, PosLt m.generated c.gen ∨ (m.generated = c.gen ∧
    (busy = true ∨ (m.source = none ∧ m.original = none ∧ m.name = none)))
  attr : Attributes c.points ms
  active : c.active = c.lastSource.isSome
  here : lookup c.points c.gen.1 c.gen.2 = originOf c.lastPos c.lastSource c.lastName
  posSome : c.active = true → c.lastPos.isSome = true

theorem Mapping.le_of_lt {a b : Mapping} (h : PosLt a.generated b.generated) : Mapping.le a b = true := by
  unfold Mapping.le Mapping.cmp
  have : cmpPair a.generated b.generated = .lt := by
    rw [cmpPair_eq]
    unfold PosLt at h
    split
    · rfl
    · rw [if_neg (by omega)]
      exact Nat.compare_eq_lt.2 (by omega)
  rw [this]; rfl

theorem Mapping.le_unmapped {a b : Mapping} (hg : a.generated = b.generated) (h1 : a.source = none)
    (h2 : a.original = none) (h3 : a.name = none) : Mapping.le a b = true := by
  obtain ⟨g, s, n, o⟩ := a
  obtain ⟨g', s', n', o'⟩ := b
  simp only at hg h1 h2 h3
  subst hg; subst h1; subst h2; subst h3
  unfold Mapping.le Mapping.cmp
  have : cmpPair g g = .eq := (cmpPair_eq_eq g g).2 rfl
  simp only [this]
  cases s' <;> cases o' <;> cases n' <;> simp [cmpOpt]

/-- Adding a mapping at the current position. -/
theorem WalkInv.add {c : WalkCtx} {code : Str} {ms : Marked} (h : WalkInv c code ms false)
    {m : Mapping} (hv : m.Valid) (hg : m.generated = c.gen) (busy : Bool)
    (hb : busy = true ∨ (m.source = none ∧ m.original = none ∧ m.name = none))
    (active : Bool) (ls : Option Int) (lp : Option (Nat × Nat)) (ln : Option Int)
    (ha : active = ls.isSome) (hp : active = true → lp.isSome = true)
    (ho : m.point.origin = originOf lp ls ln) (code' : Str) :
    WalkInv { c with code := code', map := c.map.addMapping m, active := active, lastSource := ls,
                     lastPos := lp, lastName := ln } code' ms busy := by
  have hmap := c.map.addMapping_mappings m
  have hadd := MappingList.add_inv h.truthful h.lastMax m
  have hlist : (c.map.addMapping m).mappings.list = c.map.mappings.list ++ [m] := by
    rw [hmap, MappingList.add_list]
  have hpt : (m.point.line, m.point.col) = c.gen := by rw [← hg]; rfl
  constructor
  · rfl
  · exact h.gen
  · exact Generator.addMapping_ok h.ok hv
  · rw [hmap]; exact hadd.1
  · rw [hmap]; exact hadd.2
  · simp only [hlist]
    rw [List.pairwise_append]
    refine ⟨h.ordered, by simp, ?_⟩
    intro a ha b hb
    simp at hb; subst hb
    rcases h.bound a ha with hlt | ⟨heq, hf | ⟨h1, h2, h3⟩⟩
    · exact Mapping.le_of_lt (by rw [hg]; exact hlt)
    · cases hf
    · exact Mapping.le_unmapped (by rw [heq, hg]) h1 h2 h3
  · simp only [hlist]
    intro x hx
    rw [List.mem_append] at hx
    rcases hx with hx | hx
    · rcases h.bound x hx with hlt | ⟨heq, hf | hn⟩
      · exact .inl hlt
      · cases hf
      · exact .inr ⟨heq, .inr hn⟩
    · simp at hx; subst hx
      exact .inr ⟨hg, hb⟩
  · unfold WalkCtx.points
    simp only [hlist, List.map_append, List.map_cons, List.map_nil]
    apply attributes_later h.attr
    rw [hpt, h.gen]; exact .inl rfl
  · exact ha
  · unfold WalkCtx.points
    simp only [hlist, List.map_append, List.map_cons, List.map_nil]
    rw [lookup_snoc_here (by rw [← hpt]) (by rw [← hpt]; exact Nat.le_refl _), ho]
  · exact hp

theorem WalkInv.mono {c : WalkCtx} {code : Str} {ms : Marked} (h : WalkInv c code ms false)
    (busy : Bool) : WalkInv c code ms busy :=
  { h with bound := fun m hm => (h.bound m hm).imp id fun x => ⟨x.1, .inr (x.2.resolve_left (by simp))⟩ }

theorem originOf_isSome {pos : Option (Nat × Nat)} {src name : Option Int} :
    (originOf pos src name).isSome = (src.isSome && pos.isSome) := by
  cases pos <;> cases src <;> rfl

theorem posFrom_line (t : Str) : ∀ p : Nat × Nat, p.1 ≤ (posFrom p t).1 := by
  induction t with
  | nil => intro p; exact Nat.le_refl _
  | cons x t ih =>
    intro p
    have := ih (advance p x)
    have h2 := advance_lt p x
    unfold PosLt at h2
    show p.1 ≤ (posFrom (advance p x) t).1
    omega

theorem WalkInv.line_pos {c : WalkCtx} {code : Str} {ms : Marked} {b : Bool}
    (h : WalkInv c code ms b) : 1 ≤ c.gen.1 := by
  rw [h.gen]; exact posFrom_line _ (1, 0)

/-- The first half of a string. -/
theorem chunkHead_inv {c : WalkCtx} {code : Str} {ms : Marked} (h : WalkInv c code ms false)
    (chunk : Str) (src : Option Int) (pos : Option (Nat × Nat)) (name : Option Int)
    (hok : LeafOk (chunk, originOf pos src name)) :
    WalkInv (chunkHead c chunk src pos name) (code ++ chunk) ms (!chunk.isEmpty) ∧
    (chunkHead c chunk src pos name).active = (originOf pos src name).isSome ∧
    ((chunkHead c chunk src pos name).active = true →
      (chunkHead c chunk src pos name).lastSource = src ∧
      (chunkHead c chunk src pos name).lastPos = pos ∧
      (chunkHead c chunk src pos name).lastName = name) := by
  have hcode : WalkInv { c with code := c.code ++ chunk } (code ++ chunk) ms false :=
    { h with code := by rw [h.code] }
  unfold chunkHead
  dsimp only
  by_cases hs : (src.isSome && pos.isSome) = true
  · rw [if_pos hs]
    obtain ⟨hs1, hs2⟩ := Bool.and_eq_true_iff.1 hs
    obtain ⟨s, rfl⟩ := Option.isSome_iff_exists.1 hs1
    obtain ⟨⟨l, k⟩, rfl⟩ := Option.isSome_iff_exists.1 hs2
    have hleaf := hok ⟨s, l, k, name⟩ rfl
    have hne : chunk.isEmpty = false := by
      cases chunk
      · exact absurd rfl hleaf.1
      · rfl
    refine ⟨?_, by simp [originOf], fun _ => ⟨rfl, rfl, rfl⟩⟩
    rw [hne]
    split
    · have := WalkInv.add hcode
        (m := { source := some s, original := some (l, k), generated := c.gen, name })
        ⟨h.line_pos, hleaf.2⟩ rfl true (.inl rfl) true (some s) (some (l, k)) name rfl
        (fun _ => rfl) rfl (c.code ++ chunk)
      have hc := h.code
      subst hc
      exact this
    · rename_i hsame
      simp only [not_or, ne_eq, Classical.not_not] at hsame
      obtain ⟨e1, e2, e3⟩ := hsame
      have hact : c.active = true := by rw [h.active, e1]; rfl
      have := hcode.mono (!false)
      have he : { c with code := c.code ++ chunk, lastSource := some s, lastPos := some (l, k),
                         lastName := name, active := true } = { c with code := c.code ++ chunk } := by
        cases c; simp_all
      rw [he]; exact this
  · rw [if_neg hs]
    have ho : originOf pos src name = none := by
      have := originOf_isSome (pos := pos) (src := src) (name := name)
      rw [Bool.not_eq_true] at hs
      rw [hs] at this
      simpa using this
    rw [ho]
    by_cases ha : c.active = true
    · simp only [ha, if_true]
      refine ⟨?_, rfl, fun h => by cases h⟩
      have := WalkInv.add hcode
        (m := { source := none, original := none, generated := c.gen, name := none })
        ⟨h.line_pos, rfl⟩ rfl false (.inr ⟨rfl, rfl, rfl⟩) false none c.lastPos
        c.lastName rfl (fun h => by cases h) (by cases c.lastPos <;> rfl) (code ++ chunk)
      have hc := h.code
      subst hc
      exact this.mono _
    · rw [Bool.not_eq_true] at ha
      rw [if_neg (by simp [ha])]
      exact ⟨hcode.mono _, ha, fun hh => by simp_all⟩

/-- The character loop. -/
theorem chunkChars_inv (src : Option Int) (pos : Option (Nat × Nat)) (name : Option Int)
    (hok : ∀ o, originOf pos src name = some o → 1 ≤ o.line ∧ o.line ≤ 4294967296) :
    ∀ (rest : Str) (c : WalkCtx) (code : Str) (ms : Marked),
    WalkInv c code ms (!rest.isEmpty) → c.active = (originOf pos src name).isSome →
    (c.active = true → c.lastSource = src ∧ c.lastPos = pos ∧ c.lastName = name) →
    WalkInv (chunkChars src pos name c rest) code
      (ms ++ rest.map fun x => (x, originOf pos src name)) false := by
  intro rest
  induction rest with
  | nil =>
    intro c code ms h _ _
    simpa [chunkChars] using h
  | cons ch rest ih =>
    intro c code ms h hact hlast
    -- where the character comes from
    have hhere : lookup c.points c.gen.1 c.gen.2 = originOf pos src name := by
      rw [h.here]
      by_cases ha : c.active = true
      · obtain ⟨e1, e2, e3⟩ := hlast ha; rw [e1, e2, e3]
      · have h1 := h.active
        rw [Bool.not_eq_true] at ha
        rw [ha] at h1 hact
        have : c.lastSource = none := by simpa using h1.symm
        rw [this]
        have h2 : originOf pos src name = none := by simpa using hact.symm
        rw [h2]
        cases c.lastPos <;> rfl
    have hms : (ms ++ [(ch, originOf pos src name)]).map Prod.fst = ms.map Prod.fst ++ [ch] := by simp
    have hattr : Attributes c.points (ms ++ [(ch, originOf pos src name)]) :=
      attributes_snoc h.attr (by rw [← h.gen]; exact hhere)
    have hbound : ∀ m ∈ c.map.mappings.list, PosLt m.generated (advance c.gen ch) := by
      intro m hm
      rcases h.bound m hm with hlt | ⟨heq, _⟩
      · exact hlt.trans (advance_lt _ _)
      · rw [heq]; exact advance_lt _ _
    have hgen : advance c.gen ch = posAfter ((ms ++ [(ch, originOf pos src name)]).map Prod.fst) := by
      rw [hms, posAfter_snoc, h.gen]
    have happ : ms ++ (ch :: rest).map (fun x => (x, originOf pos src name)) =
        (ms ++ [(ch, originOf pos src name)]) ++ rest.map (fun x => (x, originOf pos src name)) := by
      simp
    rw [happ, chunkChars]
    by_cases hnl : ch = '\n'
    · rw [if_pos hnl]
      have hadv : advance c.gen ch = (c.gen.1 + 1, 0) := by rw [advance, if_pos hnl]
      -- the state with nothing active on the new line
      have hoff : WalkInv { c with gen := (c.gen.1 + 1, 0), lastSource := none, active := false } code
          (ms ++ [(ch, originOf pos src name)]) false :=
        { code := h.code
          gen := by rw [← hgen, hadv]
          ok := h.ok
          truthful := h.truthful
          lastMax := h.lastMax
          ordered := h.ordered
          bound := fun m hm => .inl (by rw [← hadv]; exact hbound m hm)
          attr := hattr
          active := rfl
          here := by
            rw [lookup_none]
            · cases c.lastPos <;> rfl
            · intro p hp
              obtain ⟨m, hm, rfl⟩ := List.mem_map.1 hp
              simp only [Mapping.point]
              rcases h.bound m hm with hlt | ⟨heq, _⟩
              · unfold PosLt at hlt; omega
              · rw [heq]; omega
          posSome := fun h => by cases h }
      dsimp only
      by_cases hre : rest.isEmpty = true
      · rw [if_pos hre]
        have hr : rest = [] := by simpa using hre
        subst hr
        simpa [chunkChars] using hoff
      · rw [if_neg hre]
        have hre' : rest.isEmpty = false := by simpa using hre
        by_cases ha : c.active = true
        · rw [if_pos (by exact ha)]
          obtain ⟨e1, e2, e3⟩ := hlast ha
          rw [ha] at hact
          have hs := originOf_isSome (pos := pos) (src := src) (name := name)
          rw [← hact] at hs
          obtain ⟨hs1, hs2⟩ := Bool.and_eq_true_iff.1 hs.symm
          obtain ⟨s, hsrc⟩ := Option.isSome_iff_exists.1 hs1
          obtain ⟨⟨l, k⟩, hpos⟩ := Option.isSome_iff_exists.1 hs2
          subst hsrc; subst hpos
          have hlo := hok ⟨s, l, k, name⟩ rfl
          have := WalkInv.add hoff
            (m := { source := some s, original := some (l, k), generated := (c.gen.1 + 1, 0), name })
            ⟨by simp, hlo⟩ rfl (!rest.isEmpty) (.inl (by rw [hre']; rfl)) true (some s) (some (l, k)) name
            rfl (fun _ => rfl) rfl c.code
          have he : ({ c with gen := (c.gen.1 + 1, 0), map := (c.map.addMapping
                { source := some s, original := some (l, k), generated := (c.gen.1 + 1, 0), name }) } :
                WalkCtx) =
              { c with gen := (c.gen.1 + 1, 0), code := c.code, map := (c.map.addMapping
                { source := some s, original := some (l, k), generated := (c.gen.1 + 1, 0), name }),
                       active := true, lastSource := some s, lastPos := some (l, k),
                       lastName := name } := by
            rw [ha, e1, e2, e3]
          rw [he]
          apply ih _ code _ _ (by simp [originOf]) (fun _ => ⟨rfl, rfl, rfl⟩)
          rw [← h.code]; exact this
        · rw [if_neg (by simpa using ha)]
          rw [Bool.not_eq_true] at ha
          have hls : c.lastSource = none := by
            have := h.active; rw [ha] at this; simpa using this.symm
          have he : ({ c with gen := (c.gen.1 + 1, 0) } : WalkCtx) =
              { c with gen := (c.gen.1 + 1, 0), lastSource := none, active := false } := by
            cases c; simp_all
          rw [he]
          exact ih _ code _ (hoff.mono _) (by rw [← hact, ha]) (fun hh => by cases hh)
    · rw [if_neg hnl]
      have hadv : advance c.gen ch = (c.gen.1, c.gen.2 + 1) := by rw [advance, if_neg hnl]
      have hon : WalkInv { c with gen := (c.gen.1, c.gen.2 + 1) } code
          (ms ++ [(ch, originOf pos src name)]) false :=
        { code := h.code
          gen := by rw [← hgen, hadv]
          ok := h.ok
          truthful := h.truthful
          lastMax := h.lastMax
          ordered := h.ordered
          bound := fun m hm => .inl (by rw [← hadv]; exact hbound m hm)
          attr := hattr
          active := h.active
          here := by
            rw [← h.here]
            apply lookup_right
            intro p hp
            obtain ⟨m, hm, rfl⟩ := List.mem_map.1 hp
            simp only [Mapping.point]
            rcases h.bound m hm with hlt | ⟨heq, _⟩
            · unfold PosLt at hlt; omega
            · rw [heq]; exact .inr ⟨rfl, Nat.le_refl _⟩
          posSome := h.posSome }
      exact ih _ code _ (hon.mono _) hact hlast

/-- A whole string. -/
theorem processChunk_inv {c : WalkCtx} {code : Str} {ms : Marked} (h : WalkInv c code ms false)
    (chunk : Str) (src : Option Int) (pos : Option (Nat × Nat)) (name : Option Int)
    (hok : LeafOk (chunk, originOf pos src name)) :
    WalkInv (processChunk c chunk src pos name) (code ++ chunk)
      (ms ++ marked [(chunk, originOf pos src name)]) false := by
  obtain ⟨h1, h2, h3⟩ := chunkHead_inv h chunk src pos name hok
  have := chunkChars_inv src pos name (fun o ho => (hok o ho).2) chunk _ _ ms h1 h2 h3
  simpa [marked, processChunk] using this

theorem processContent_inv (cs : List (Int × Int)) : ∀ {c : WalkCtx} {code : Str} {ms : Marked},
    WalkInv c code ms false → WalkInv (cs.foldl processContent c) code ms false := by
  induction cs with
  | nil => intro c code ms h; exact h
  | cons p cs ih =>
    intro c code ms h
    apply ih
    obtain ⟨f1, f2, f3⟩ := c.map.setContent_fields p.1 (some p.2)
    have : WalkInv { c with map := c.map.setSourceContent p.1 (some p.2) } code ms false :=
      { code := h.code, gen := h.gen, ok := Generator.setContent_ok h.ok p.1 (some p.2)
        truthful := h.truthful, lastMax := h.lastMax, ordered := h.ordered, bound := h.bound
        attr := h.attr, active := h.active, here := h.here, posSome := h.posSome }
    exact this

theorem marked_append (a b : List (Str × Option Origin)) : marked (a ++ b) = marked a ++ marked b := by
  unfold marked; rw [List.flatMap_append]

mutual
  /-- The walk over a tree. -/
  theorem SmNode.walk_inv : ∀ (n : SmNode) {c : WalkCtx} {code : Str} {ms : Marked},
      WalkInv c code ms false → (∀ l ∈ n.leaves, LeafOk l) →
      WalkInv (n.walk c) (code ++ n.text) (ms ++ n.marks) false
    | .str s, c, code, ms, h, hok => by
      have := processChunk_inv h s none none none (hok (s, none) (by simp [SmNode.leaves]))
      simpa [SmNode.walk, SmNode.text, SmNode.marks, SmNode.leaves, originOf] using this
    | .node pos src name cs ch, c, code, ms, h, hok => by
      rw [SmNode.walk]
      exact processContent_inv cs (SmNode.walkList_inv pos src name ch h hok)
  /-- The walk over children. -/
  theorem SmNode.walkList_inv (pos : Option (Nat × Nat)) (src name : Option Int) :
      ∀ (ch : List SmNode) {c : WalkCtx} {code : Str} {ms : Marked},
      WalkInv c code ms false → (∀ l ∈ SmNode.leavesList (originOf pos src name) ch, LeafOk l) →
      WalkInv (SmNode.walkList pos src name ch c)
        (code ++ ((SmNode.leavesList (originOf pos src name) ch).map Prod.fst).flatten)
        (ms ++ marked (SmNode.leavesList (originOf pos src name) ch)) false
    | [], c, code, ms, h, _ => by simpa [SmNode.walkList, SmNode.leavesList, marked] using h
    | .str s :: rest, c, code, ms, h, hok => by
      rw [SmNode.leavesList] at hok ⊢
      have h1 := processChunk_inv h s src pos name (hok _ (by simp))
      have := SmNode.walkList_inv pos src name rest h1 (fun l hl => hok l (by simp [hl]))
      rw [SmNode.walkList]
      have e : (s, originOf pos src name) :: SmNode.leavesList (originOf pos src name) rest =
          [(s, originOf pos src name)] ++ SmNode.leavesList (originOf pos src name) rest := rfl
      rw [e, marked_append, ← List.append_assoc]
      simpa using this
    | .node p s n cs ch :: rest, c, code, ms, h, hok => by
      rw [SmNode.leavesList] at hok ⊢
      have h1 := SmNode.walk_inv (.node p s n cs ch) h (fun l hl => hok l (by simp [hl]))
      have := SmNode.walkList_inv pos src name rest h1 (fun l hl => hok l (by simp [hl]))
      rw [SmNode.walkList, marked_append, ← List.append_assoc]
      simpa [SmNode.text, SmNode.marks] using this
end

theorem WalkCtx.new_inv (file : Option Int) (root : Option Str) :
    WalkInv (WalkCtx.new file root) [] [] false :=
  { code := rfl, gen := rfl, ok := Generator.new_ok _ _ _
    truthful := fun _ => List.Pairwise.nil, lastMax := rfl, ordered := List.Pairwise.nil
    bound := fun m hm => by simp [WalkCtx.new, Generator.new, MappingList.new] at hm
    attr := fun k c o hk => by simp at hk
    active := rfl, here := rfl, posSome := fun h => by cases h }

end WS
