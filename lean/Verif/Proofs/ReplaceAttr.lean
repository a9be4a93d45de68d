import Verif.Proofs.NodeText
import Verif.Proofs.Locate
/-! # The origin given to replacement texts -/

namespace WS
open Spec

/-! ## What `replacement_to_sourcenode` finds -/

/-- Mappings at or before the beginning of the text. -/
def atBegin (l : List Mapping) : List Mapping :=
  l.filter fun m => decide (m.generated.1 < 1 ∨ (m.generated.1 = 1 ∧ m.generated.2 ≤ 0))

/-- The walk has the mappings `X` at the beginning and is past it (`past`) or still there. -/
structure Later (X : List Mapping) (past : Bool) (c : Core) : Prop where
  truthful : c.mappings.Truthful
  lastMax : c.mappings.LastMax
  begin_ : atBegin c.mappings.list = X
  gen : past = true → 1 < c.gen.1 ∨ (c.gen.1 = 1 ∧ 0 < c.gen.2)
  start : past = false → c.gen = (1, 0)

theorem Later.add {X : List Mapping} {c : Core} (h : Later X true c) (m : Mapping)
    (hm : m.generated = c.gen) :
    (c.mappings.add m).Truthful ∧ (c.mappings.add m).LastMax ∧ atBegin (c.mappings.add m).list = X := by
  obtain ⟨h1, h2⟩ := MappingList.add_inv h.truthful h.lastMax m
  refine ⟨h1, h2, ?_⟩
  rw [MappingList.add_list, atBegin, List.filter_append]
  have := h.begin_
  rw [atBegin] at this
  rw [this]
  have hg := h.gen rfl
  simp only [List.filter_cons, List.filter_nil]
  rw [if_neg (by rw [hm]; simp only [decide_eq_true_eq]; omega), List.append_nil]

theorem Later.head {X : List Mapping} {c : Core} (h : Later X true c) (o : Option Origin) :
    Later X true (c.head o) := by
  unfold Core.head
  cases o with
  | some o =>
    dsimp only
    split
    · obtain ⟨h1, h2, h3⟩ := h.add { generated := c.gen, source := some o.source, name := o.name,
                                     original := some (o.line, o.col) } rfl
      exact ⟨h1, h2, h3, h.gen, fun e => by cases e⟩
    · exact ⟨h.truthful, h.lastMax, h.begin_, h.gen, fun e => by cases e⟩
  | none =>
    dsimp only
    split
    · obtain ⟨h1, h2, h3⟩ := h.add { generated := c.gen, source := none, name := none,
                                     original := none } rfl
      exact ⟨h1, h2, h3, h.gen, fun e => by cases e⟩
    · exact h

theorem Later.char {X : List Mapping} {b : Bool} {c : Core} (h : Later X b c) (o : Option Origin)
    (ch : Char) (rest : Str) : ∃ c', Later X true c' ∧ Core.chars o c (ch :: rest) = Core.chars o c' rest := by
  have hg : 1 ≤ c.gen.1 := by
    cases b with
    | true => have := h.gen rfl; omega
    | false => rw [h.start rfl]; exact Nat.le_refl 1
  rw [Core.chars]
  split
  · dsimp only
    have h' : Later X true { c with gen := (c.gen.1 + 1, 0) } :=
      ⟨h.truthful, h.lastMax, h.begin_, fun _ => .inl (by simp only; omega), fun e => by cases e⟩
    refine ⟨_, ?_, rfl⟩
    split
    · exact ⟨h'.truthful, h'.lastMax, h'.begin_, h'.gen, fun e => by cases e⟩
    · cases o with
      | some o =>
        dsimp only
        obtain ⟨h1, h2, h3⟩ := h'.add
          ⟨(c.gen.1 + 1, 0), some o.source, o.name, some (o.line, o.col)⟩ rfl
        exact ⟨h1, h2, h3, h'.gen, fun e => by cases e⟩
      | none => exact h'
  · refine ⟨{ c with gen := (c.gen.1, c.gen.2 + 1) }, ⟨h.truthful, h.lastMax, h.begin_, fun _ => ?_,
      fun e => by cases e⟩, rfl⟩
    dsimp only
    omega

theorem Later.chars {X : List Mapping} (o : Option Origin) : ∀ (s : Str) {c : Core}, Later X true c →
    Later X true (Core.chars o c s)
  | [], _, h => h
  | ch :: rest, c, h => by
    obtain ⟨c', h', e⟩ := h.char o ch rest
    rw [e]
    exact Later.chars o rest h'

theorem Later.walk {X : List Mapping} : ∀ (L : List (Str × Option Origin)) {c : Core}, Later X true c →
    Later X true (c.walk L)
  | [], _, h => h
  | (s, o) :: L, c, h => by
    rw [Core.walk]
    exact Later.walk L (Later.chars o s (h.head o))

/-- The mapping made for the first leaf. -/
def firstMapping : Option Origin → List Mapping
  | some o => [{ generated := (1, 0), source := some o.source, name := o.name,
                 original := some (o.line, o.col) }]
  | none => []

theorem later_first (o : Option Origin) : Later (firstMapping o) false (Core.new.head o) := by
  have h0 : Core.new.mappings.Truthful ∧ Core.new.mappings.LastMax :=
    ⟨fun _ => List.Pairwise.nil, by simp [MappingList.LastMax, Core.new, MappingList.new]⟩
  cases o with
  | none => exact ⟨h0.1, h0.2, rfl, fun e => (by cases e), fun _ => rfl⟩
  | some o =>
    have hc : (Core.new.lastSource ≠ some o.source ∨ Core.new.lastPos ≠ some (o.line, o.col) ∨
          Core.new.lastName ≠ o.name) := .inl (by simp [Core.new])
    unfold Core.head
    dsimp only
    rw [if_pos hc]
    obtain ⟨h1, h2⟩ := MappingList.add_inv h0.1 h0.2 { generated := (1, 0), source := some o.source,
                                                       name := o.name, original := some (o.line, o.col) }
    exact ⟨h1, h2, rfl, fun e => (by cases e), fun _ => rfl⟩

theorem originalPosition_of_later {o : Option Origin} {b : Bool} {c : Core}
    (h : Later (firstMapping o) b c) :
    (let m := originalPositionIn c.mappings.sort.list 1 0
     originOf m.original m.source none) = o.map Origin.unnamed := by
  have hs := MappingList.sort_truthful h.truthful MappingList.sort_sorted
  have hperm : (atBegin c.mappings.sort.list).Perm (firstMapping o) := by
    rw [← h.begin_]
    exact c.mappings.sort_perm.filter _
  dsimp only
  rw [originalPositionIn_eq _ hs]
  rw [atBegin] at hperm
  cases o with
  | none =>
    rw [List.perm_nil.1 hperm]
    rfl
  | some o =>
    rw [List.perm_singleton.1 hperm]
    rfl

/-- The first leaf has text: its origin is found. -/
theorem headOrigin_full {b : Str} (hb : b ≠ []) (o : Option Origin) (rest : List (Str × Option Origin)) :
    headOrigin ((b, o) :: rest) = o.map Origin.unnamed := by
  cases b with
  | nil => exact absurd rfl hb
  | cons ch b =>
    unfold headOrigin
    refine originalPosition_of_later (b := true) ?_
    rw [Core.walk]
    obtain ⟨c', h, e⟩ := (later_first o).char o ch b
    rw [e]
    exact Later.walk rest (Later.chars o b h)

theorem headOrigin_empty (o : Option Origin) : headOrigin [([], o)] = o.map Origin.unnamed := by
  unfold headOrigin
  exact originalPosition_of_later (later_first o)

theorem head_twice (c : Core) (o : Option Origin) : (c.head o).head o = c.head o := by
  cases o with
  | some o => simp [Core.head]
  | none =>
    unfold Core.head
    dsimp only
    split
    · rfl
    · rfl

theorem headOrigin_skip {o o' : Option Origin} (h : o = none ∨ o = o') {b : Str} (hb : b ≠ [])
    (rest : List (Str × Option Origin)) :
    headOrigin (([], o) :: (b, o') :: rest) = o'.map Origin.unnamed := by
  rw [← headOrigin_full hb o' rest]
  unfold headOrigin
  have : Core.new.walk (([], o) :: (b, o') :: rest) = Core.new.walk ((b, o') :: rest) := by
    rw [Core.walk, Core.chars, Core.walk, Core.walk]
    rcases h with rfl | rfl
    · rfl
    · rw [head_twice]
  rw [this]

/-! ## The shape of a split -/

theorem splitLeaves_shape : ∀ (L : List (Str × Option Origin)) (p : Int), FullLeaves L →
    ∀ l r, splitLeaves L p = .ok (l, r) →
    ∃ l0 a b o rest, l = l0 ++ [(a, o)] ∧ r = (b, o) :: rest ∧ L = l0 ++ (a ++ b, o) :: rest ∧
      (p ≤ 0 → l0 = [] ∧ a = []) ∧ (0 < p → a ≠ [])
  | [], p, _, l, r, h => by cases h
  | (s, o) :: L, p, hf, l, r, h => by
    rw [splitLeaves] at h
    have hs : s ≠ [] := hf (s, o) (by simp)
    have hc := splitChars_marks s p
    revert h hc
    rcases splitChars s p with q | ⟨a, b⟩
    · rintro h ⟨rfl, hq⟩
      dsimp only at h
      cases hr : splitLeaves L (p - s.length) with
      | error e => rw [hr] at h; cases h
      | ok lr =>
        obtain ⟨l', r'⟩ := lr
        rw [hr] at h
        cases h
        obtain ⟨l0, a, b, o', rest, h1, h2, h3, h4, h5⟩ :=
          splitLeaves_shape L _ (fun x hx => hf x (by simp [hx])) _ _ hr
        refine ⟨(s, o) :: l0, a, b, o', rest, by simp [h1], h2, by simp [h3], ?_, ?_⟩
        · intro hp; omega
        · intro _; exact h5 hq
    · rintro h ⟨h1, h2⟩
      cases h
      refine ⟨[], a, b, o, L, rfl, rfl, by simp [h1], ?_, ?_⟩
      · intro hp
        refine ⟨rfl, ?_⟩
        have : a.length = 0 := by omega
        exact List.length_eq_zero_iff.1 this
      · intro hp e
        subst e
        simp at h2
        omega

/-- What is left of an edit: part of the text `m`, in leaves that are not empty, or nothing of it. -/
structure LeftPart (m : Marked) (k : Nat) (R : List (Str × Option Origin)) : Prop where
  marks : marked R = m.take k
  shape : (FullLeaves R ∧ (R = [] → m = [])) ∨
    (k = 0 ∧ ∃ c o, R = [([], o)] ∧ m.head? = some (c, o))

theorem mark_append (o : Option Origin) (a b : Str) : mark o (a ++ b) = mark o a ++ mark o b := by
  simp [mark]

theorem LeftPart.split {m : Marked} {k : Nat} {R : List (Str × Option Origin)} (h : LeftPart m k R)
    {p : Int} (hp : p.toNat ≤ k ∨ m.length ≤ k) {l r : List (Str × Option Origin)}
    (e : splitLeaves R p = .ok (l, r)) :
    LeftPart m p.toNat l ∧ l ≠ [] ∧ p.toNat ≤ m.length ∧
    (CleanStart m p k → headOrigin r = editOrigin m p k) := by
  have hm := splitLeaves_marks R p
  rw [e] at hm
  obtain ⟨h1, h2⟩ := hm
  have hlen : p.toNat ≤ (m.take k).length := by
    rw [← h.marks, ← h1, List.length_append, h2]; omega
  rw [List.length_take] at hlen
  have htake : marked l = m.take p.toNat := by
    have := congrArg (List.take p.toNat) (h1.trans h.marks)
    rw [← h2, List.take_left, h2, List.take_take] at this
    rw [this]
    congr 1
    omega
  rcases h.shape with ⟨hf, hne⟩ | ⟨rfl, c, o, rfl, hh⟩
  · obtain ⟨l0, a, b, o, rest, rfl, rfl, hR, ha, hb⟩ := splitLeaves_shape R p hf l r e
    subst hR
    have hab : a ++ b ≠ [] := hf (a ++ b, o) (by simp)
    have hrest : FullLeaves rest := fun x hx => hf x (by simp [hx])
    have hmk : m.take k = marked l0 ++ (mark o a ++ (mark o b ++ marked rest)) := by
      rw [← h.marks, marked_append, marked_cons, mark_append, List.append_assoc]
    have hl' : (marked l0).length + a.length = p.toNat := by
      rw [← h2, marked_append, marked_cons]
      simp [marked, mark]
    refine ⟨⟨htake, ?_⟩, by simp, by omega, ?_⟩
    · by_cases hp0 : p ≤ 0
      · obtain ⟨rfl, rfl⟩ := ha hp0
        cases b with
        | nil => exact absurd rfl hab
        | cons c b =>
          refine .inr ⟨by omega, c, o, rfl, ?_⟩
          have : (m.take k).head? = some (c, o) := by rw [hmk]; rfl
          cases m with
          | nil => simp at this
          | cons x m =>
            cases k with
            | zero => simp at this
            | succ k => simpa using this
      · refine .inl ⟨?_, by simp⟩
        refine FullLeaves.append (fun x hx => hf x (by simp [hx])) ?_
        intro x hx
        simp only [List.mem_singleton] at hx
        subst hx
        exact hb (by omega)
    · intro hclean
      have hget : ∀ j, j < min k m.length → m[j]? = (m.take k)[j]? := by
        intro j hj
        rw [List.getElem?_take, if_pos (by omega)]
      have hlk : (m.take k).length = min k m.length := List.length_take
      -- the character before
      have hprev : 0 < p.toNat → m[p.toNat - 1]?.bind Prod.snd = o := by
        intro hp0
        have ha0 : a ≠ [] := hb (by omega)
        have hal : 0 < a.length := List.length_pos_iff.2 ha0
        rw [hget _ (by omega), hmk, List.getElem?_append_right (by omega),
          List.getElem?_append_left (by simp [mark]; omega)]
        rw [mark, List.getElem?_map, List.getElem?_eq_getElem (by omega)]
        rfl
      unfold editOrigin
      cases b with
      | cons c b =>
        rw [headOrigin_full (by simp)]
        have hlt : p.toNat < min k m.length := by
          rw [← hlk, hmk]
          simp [mark]
          omega
        rw [if_pos (by simpa using hlt), hget _ hlt, hmk, List.getElem?_append_right (by omega),
          List.getElem?_append_right (by simp [mark]; omega)]
        have : p.toNat - (marked l0).length - (mark o a).length = 0 := by simp [mark]; omega
        rw [this]
        rfl
      | nil =>
        have ha0 : a ≠ [] := by simpa using hab
        have hp0 : 0 < p.toNat := by
          have := List.length_pos_iff.2 ha0
          omega
        cases rest with
        | nil =>
          rw [headOrigin_empty]
          have : ¬ p.toNat < min k m.length := by
            rw [← hlk, hmk]
            rw [show marked ([] : List (Str × Option Origin)) = [] from rfl]
            simp only [List.length_append, mark, List.length_map, List.map_nil, List.length_nil]
            omega
          rw [if_neg (by simpa using this), hprev hp0]
        | cons x rest =>
          obtain ⟨c, o'⟩ := x
          have hc : c ≠ [] := hrest (c, o') (by simp)
          obtain ⟨d, cs, rfl⟩ := List.exists_cons_of_ne_nil hc
          have hlt : p.toNat < min k m.length := by
            rw [← hlk, hmk, marked_cons]
            simp [mark]
            omega
          have hthis : m[p.toNat]?.bind Prod.snd = o' := by
            rw [hget _ hlt, hmk, List.getElem?_append_right (by omega),
              List.getElem?_append_right (by simp [mark]; omega), marked_cons]
            have : p.toNat - (marked l0).length - (mark o a).length = 0 := by simp [mark]; omega
            rw [this]
            rfl
          rw [if_pos (by simpa using hlt), hthis]
          refine headOrigin_skip ?_ hc rest
          have := hclean (by simpa using hlt)
          rw [hprev hp0, hthis] at this
          rcases this with h | h
          · omega
          · exact h
  · -- nothing of the text is left
    rw [splitLeaves] at e
    have hc := splitChars_marks [] p
    revert e hc
    rcases splitChars [] p with q | ⟨a, b⟩
    · rintro e _; cases e
    · rintro e ⟨hab, hal⟩
      obtain ⟨rfl, rfl⟩ : a = [] ∧ b = [] := by simpa using hab
      cases e
      have hp0 : p.toNat = 0 := by simpa using hal.symm
      refine ⟨⟨htake, .inr ⟨hp0, c, o, rfl, hh⟩⟩, by simp, by omega, ?_⟩
      intro _
      rw [headOrigin_empty, editOrigin, hp0, if_neg (by simp)]
      cases m with
      | nil => cases hh
      | cons x m => simp at hh; subst hh; rfl

/-- The edits with the origins of their texts in `m`. -/
def originEdits (m : Marked) (rs : List Repl) : List MarkedEdit :=
  rs.map fun r => ⟨r.start, r.stop, uniform (editOrigin m r.start r.stop) r.text⟩

/-- `ReplaceSource::node` on leaves that are not empty, for disjoint edits listed from right to left
that start where the origin does not change. -/
theorem leafLoop_exact {m : Marked} : ∀ (rs : List Repl) (R : List (Str × Option Origin)) (k : Nat),
    LeftPart m k R → (∀ r ∈ rs, r.start ≤ r.stop ∧ CleanStart m r.start r.stop) →
    rs.Pairwise (fun a b => b.stop ≤ a.start) → (∀ r ∈ rs, r.stop.toNat ≤ k ∨ m.length ≤ k) →
    marked (leafLoop R rs) = applyRightM (marked R) (originEdits m rs)
  | [], R, k, _, _, _, _ => rfl
  | r :: rs, R, k, hL, hr, hd, hk => by
    have hk0 := hk r (by simp)
    obtain ⟨hle, hclean⟩ := hr r (by simp)
    have hr' := fun x hx => hr x (List.mem_cons_of_mem _ hx)
    obtain ⟨hd1, hd2⟩ := List.pairwise_cons.1 hd
    have hlenR : (marked R).length = min k m.length := by rw [hL.marks, List.length_take]
    rw [leafLoop, originEdits, List.map_cons, applyRightM]
    have h1 := splitLeaves_marks R r.stop
    have s1 := fun l x => hL.split hk0 (l := l) (r := x)
    have hnext : ∀ x ∈ rs, x.stop.toNat ≤ r.start.toNat ∨ m.length ≤ r.start.toNat := by
      intro x hx
      have := hd1 x hx
      exact .inl (by omega)
    revert h1 s1
    rcases splitLeaves R r.stop with q | ⟨l1, r1⟩
    · rintro ⟨rfl, hq⟩ _
      dsimp only
      have hstop : (marked R).length ≤ r.stop.toNat := by
        rcases hq with hq | hq
        · omega
        · subst hq; simp [marked]
      rw [List.take_of_length_le hstop, List.drop_eq_nil_of_le hstop, List.append_nil]
      have hmin : R ≠ [] → min k m.length = min r.stop.toNat m.length := by
        intro hne
        rcases hq with hq | hq
        · omega
        · exact absurd hq hne
      have h2 := splitLeaves_marks R r.start
      have s2 := fun l x => hL.split (p := r.start) (by omega) (l := l) (r := x)
      revert h2 s2
      rcases hsp : splitLeaves R r.start with q | ⟨l2, r2⟩
      · rintro ⟨rfl, hq'⟩ _
        dsimp only
        have hstart : (marked R).length ≤ r.start.toNat := by
          rcases hq' with hq' | hq'
          · omega
          · subst hq'; simp [marked]
        have ih := leafLoop_exact rs R k hL hr' hd2 (fun x hx => hk x (by simp [hx]))
        rw [marked_append, ih, List.take_of_length_le hstart]
        congr 1
        have hnone : editOrigin m r.start r.stop = none := by
          unfold editOrigin
          rcases hq' with hq' | hq'
          · have : m.length ≤ r.start.toNat - 1 := by omega
            rw [if_neg (by omega), List.getElem?_eq_none this]
            rfl
          · have hm : m = [] := by
              rcases hL.shape with ⟨_, h⟩ | ⟨_, c, o, h, _⟩
              · exact h hq'
              · rw [hq'] at h; cases h
            subst hm
            simp
        rw [hnone]
        simp [marked, uniform]
      · rintro ⟨k1, k2⟩ s2
        dsimp only
        obtain ⟨hL2, _, _, ho⟩ := s2 l2 r2 rfl
        have hne : R ≠ [] := by rintro rfl; cases hsp
        have ih := leafLoop_exact rs l2 _ hL2 hr' hd2 hnext
        have e1 : editOrigin m r.start r.stop = editOrigin m r.start k := by
          unfold editOrigin
          rw [Int.toNat_natCast, hmin hne]
        rw [marked_append, ih, marked_replLeaf, ho (by
          unfold CleanStart at hclean ⊢
          rw [Int.toNat_natCast, hmin hne]
          exact hclean), e1, ← k1, ← k2, List.take_left]
        rfl
    · rintro ⟨k1, k2⟩ s1
      dsimp only
      obtain ⟨hL1, hne1, hlen1, _⟩ := s1 l1 r1 rfl
      have htake : (marked R).take r.stop.toNat = marked l1 := by rw [← k1, ← k2, List.take_left]
      have hdrop : (marked R).drop r.stop.toNat = marked r1 := by rw [← k1, ← k2, List.drop_left]
      rw [htake, hdrop]
      have h2 := splitLeaves_marks l1 r.start
      have s2 := fun l x => hL1.split (p := r.start) (by omega) (l := l) (r := x)
      revert h2 s2
      rcases splitLeaves l1 r.start with q | ⟨l2, r2⟩
      · rintro ⟨rfl, hq'⟩ _
        rcases hq' with hq' | hq'
        · omega
        · exact absurd hq' hne1
      · rintro ⟨k3, k4⟩ s2
        dsimp only
        obtain ⟨hL2, _, _, ho⟩ := s2 l2 r2 rfl
        have ih := leafLoop_exact rs l2 _ hL2 hr' hd2 hnext
        rw [marked_append, marked_append, ih, marked_replLeaf, ho (by
          unfold CleanStart at hclean ⊢
          rw [Int.toNat_natCast]
          exact hclean), ← k3, ← k4, List.take_left]
        have e1 : editOrigin m r.start (r.stop.toNat : Int) = editOrigin m r.start r.stop := by
          unfold editOrigin
          rw [Int.toNat_natCast]
        rw [e1, List.append_assoc]
        rfl

end WS
