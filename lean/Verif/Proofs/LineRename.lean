import Verif.Proofs.Seen
/-! # List maps that differ in their string indices only

`Tree.listMap` compares string indices (`source_node.rs:51-63`, `single_line_node.rs:51-76`,
`mappings_context.rs:24-43`) but does not look at them otherwise. -/

namespace WS

/-- Two lists are related element by element. -/
inductive Each2 {α β : Type _} (R : α → β → Prop) : List α → List β → Prop where
  | nil : Each2 R [] []
  | cons {a : α} {b : β} {l : List α} {l' : List β} : R a b → Each2 R l l' → Each2 R (a :: l) (b :: l')

/-- Both calls fail alike, or both succeed with related results. -/
inductive ERel {ε α β : Type _} (R : α → β → Prop) : Except ε α → Except ε β → Prop where
  | error (e : ε) : ERel R (.error e) (.error e)
  | ok {a : α} {b : β} : R a b → ERel R (.ok a) (.ok b)

/-- Both are absent, or both are present and related. -/
inductive OptRel {α β : Type _} (R : α → β → Prop) : Option α → Option β → Prop where
  | none : OptRel R none none
  | some {a : α} {b : β} : R a b → OptRel R (some a) (some b)

/-- The relation is one-to-one. -/
def OneToOne {α β : Type _} (R : α → β → Prop) : Prop :=
  ∀ a b a' b', R a b → R a' b' → (a = a' ↔ b = b')

namespace Each2
variable {α β : Type _} {R : α → β → Prop}

theorem append {l m : List α} {l' m' : List β} (h : Each2 R l l') (k : Each2 R m m') :
    Each2 R (l ++ m) (l' ++ m') := by
  induction h with
  | nil => exact k
  | cons h _ ih => exact .cons h ih

theorem reverse {l : List α} {l' : List β} (h : Each2 R l l') : Each2 R l.reverse l'.reverse := by
  induction h with
  | nil => exact .nil
  | cons h _ ih =>
    rw [List.reverse_cons, List.reverse_cons]
    exact ih.append (.cons h .nil)

theorem length {l : List α} {l' : List β} (h : Each2 R l l') : l.length = l'.length := by
  induction h with
  | nil => rfl
  | cons _ _ ih => simp [ih]

theorem last {l : List α} {l' : List β} (h : Each2 R l l') :
    (l = [] ∧ l' = []) ∨ ∃ x y a b, l = x ++ [a] ∧ l' = y ++ [b] ∧ Each2 R x y ∧ R a b := by
  have h := h.reverse
  generalize hr : l.reverse = r at h
  generalize hr' : l'.reverse = r' at h
  cases h with
  | nil => exact .inl ⟨by simpa using hr, by simpa using hr'⟩
  | @cons a b x y hab h =>
    refine .inr ⟨x.reverse, y.reverse, a, b, ?_, ?_, h.reverse, hab⟩
    · rw [← List.reverse_reverse l, hr]; simp
    · rw [← List.reverse_reverse l', hr']; simp

theorem map {γ δ : Type _} {S : γ → δ → Prop} {f : α → γ} {g : β → δ} (hf : ∀ a b, R a b → S (f a) (g b))
    {l : List α} {l' : List β} (h : Each2 R l l') : Each2 S (l.map f) (l'.map g) := by
  induction h with
  | nil => exact .nil
  | cons h _ ih => exact .cons (hf _ _ h) ih

theorem flatten {l : List (List α)} {l' : List (List β)} (h : Each2 (Each2 R) l l') :
    Each2 R l.flatten l'.flatten := by
  induction h with
  | nil => exact .nil
  | cons h _ ih => exact h.append ih

theorem of_get {l : List α} {l' : List β} (hl : l.length = l'.length)
    (h : ∀ (k : Nat) a b, l[k]? = some a → l'[k]? = some b → R a b) : Each2 R l l' := by
  induction l generalizing l' with
  | nil => cases l' with
    | nil => exact .nil
    | cons => simp at hl
  | cons a l ih => cases l' with
    | nil => simp at hl
    | cons b l' =>
      exact .cons (h 0 a b rfl rfl) (ih (by simpa using hl) fun k x y h1 h2 => h (k + 1) x y (by simpa using h1) (by simpa using h2))

end Each2

variable {R K : Option Int → Option Int → Prop}

/-- The nodes are the same but for their indices. -/
inductive LNode.Like (R K : Option Int → Option Int → Prop) : LNode → LNode → Prop where
  | code (s : Str) : LNode.Like R K (.code s) (.code s)
  | source {o o' s s' : Option Int} (c : Str) (a b : Nat) (e : Bool) : R s s' → K o o' →
      LNode.Like R K (.source ⟨c, o, s, a, b, e⟩) (.source ⟨c, o', s', a, b, e⟩)
  | single {o o' s s' : Option Int} (c : Str) (a b : Nat) (e : Bool) : R s s' → K o o' →
      LNode.Like R K (.single ⟨c, o, s, a, b, e⟩) (.single ⟨c, o', s', a, b, e⟩)

/-- The list maps are the same but for their indices. -/
abbrev SlmLike (R K : Option Int → Option Int → Prop) : Slm → Slm → Prop := Each2 (LNode.Like R K)

theorem LNode.Like.new {o o' s s' : Option Int} (c : Str) (n : Nat) (hs : R s s') (ho : K o o') :
    LNode.Like R K (.source (LSource.new c s o n)) (.source (LSource.new c s' o' n)) := .source _ _ _ _ hs ho

theorem LNode.Like.new1 {o o' s s' : Option Int} (c : Str) (n : Nat) (hs : R s s') (ho : K o o') :
    LNode.Like R K (.single (LSingle.new c s o n)) (.single (LSingle.new c s' o' n)) := .single _ _ _ _ hs ho

theorem LNode.Like.merge (hR : OneToOne R) (hK : OneToOne K) {a a' b b' : LNode} (ha : a.Like R K a')
    (hb : b.Like R K b') : OptRel (LNode.Like R K) (a.merge b) (a'.merge b') := by
  cases ha with
  | code s => cases hb with
    | code t => exact .some (.code _)
    | source => exact .none
    | single => exact .none
  | source c x y e hs ho => cases hb with
    | code t => exact .none
    | source c' x' y' e' hs' ho' =>
      simp only [LNode.merge, LSource.mergeSource, hR _ _ _ _ hs hs']
      split
      · exact .some (.source _ _ _ _ hs ho)
      · exact .none
    | single c' x' y' e' hs' ho' =>
      simp only [LNode.merge, LSource.mergeSingle, hR _ _ _ _ hs hs']
      split
      · exact .some (.source _ _ _ _ hs ho)
      · exact .none
  | single c x y e hs ho => cases hb with
    | code t => exact .none
    | source => exact .none
    | single c' x' y' e' hs' ho' =>
      simp only [LNode.merge, LSingle.mergeSingle, hR _ _ _ _ hs hs', hK _ _ _ _ ho ho']
      split
      · split
        · exact .some (.single _ _ _ _ hs ho)
        · split
          · exact .some (.new _ _ hs ho)
          · exact .none
      · exact .none

theorem normLines_like {o o' s s' : Option Int} (hs : R s s') (ho : K o o') (e : Bool) :
    ∀ (n : Nat) (ls : List Str), SlmLike R K (normLines s o e n ls) (normLines s' o' e n ls)
  | _, [] => .nil
  | n, [l] => by
    simp only [normLines]
    split
    · exact .nil
    · exact .cons (.new1 _ _ hs ho) .nil
  | n, l :: l' :: ls => .cons (.new1 _ _ hs ho) (normLines_like hs ho e (n + 1) (l' :: ls))

theorem LNode.Like.normalized {a b : LNode} (h : a.Like R K b) : SlmLike R K a.normalized b.normalized := by
  cases h with
  | code s => exact .cons (.code s) .nil
  | source c x y e hs ho => exact normLines_like hs ho _ _ _
  | single c x y e hs ho => exact .cons (.single c x y e hs ho) .nil

theorem LNode.Like.mapCode {σ : Type _} (f : σ → Str → Str × σ) (st : σ) {a b : LNode} (h : a.Like R K b) :
    OptRel (LNode.Like R K) (a.mapCode f st).1 (b.mapCode f st).1 ∧ (a.mapCode f st).2 = (b.mapCode f st).2 := by
  cases h with
  | code s => exact ⟨.some (.code _), rfl⟩
  | source c x y e hs ho => exact ⟨.none, rfl⟩
  | single c x y e hs ho => exact ⟨.some (.new1 _ _ hs ho), rfl⟩

theorem pushMerge_like (hR : OneToOne R) (hK : OneToOne K) {l l' : List LNode} (h : SlmLike R K l l')
    {a b : Option LNode} (hab : OptRel (LNode.Like R K) a b) : SlmLike R K (pushMerge l a) (pushMerge l' b) := by
  cases hab with
  | none => exact h
  | some hab =>
    cases h with
    | nil => exact .cons hab .nil
    | cons hx h =>
      have hm := hx.merge hR hK hab
      simp only [pushMerge]
      generalize LNode.merge _ _ = p at hm ⊢
      generalize LNode.merge _ _ = q at hm ⊢
      cases hm with
      | none => exact .cons hab (.cons hx h)
      | some hm => exact .cons hm h

theorem mapLoop_like {σ : Type _} (f : σ → Str → Str × σ) (hR : OneToOne R) (hK : OneToOne K) :
    ∀ {ns ns' : List LNode} {rev rev' : List LNode} (st : σ), SlmLike R K ns ns' → SlmLike R K rev rev' →
      SlmLike R K (mapLoop f st rev ns).1 (mapLoop f st rev' ns').1 ∧
        (mapLoop f st rev ns).2 = (mapLoop f st rev' ns').2 := by
  intro ns ns' rev rev' st h
  induction h generalizing rev rev' st with
  | nil => intro hr; exact ⟨hr, rfl⟩
  | @cons a b l l' hab h ih =>
    intro hr
    obtain ⟨h1, h2⟩ := hab.mapCode f st
    have := ih (a.mapCode f st).2 (pushMerge_like hR hK hr h1)
    simp only [mapLoop]
    rw [← h2]
    exact this

theorem slmMapGenerated_like {σ : Type _} (f : σ → Str → Str × σ) (st : σ) (hR : OneToOne R) (hK : OneToOne K)
    {m m' : Slm} (h : SlmLike R K m m') :
    SlmLike R K (slmMapGenerated f st m).1 (slmMapGenerated f st m').1 ∧
      (slmMapGenerated f st m).2 = (slmMapGenerated f st m').2 := by
  have := mapLoop_like f hR hK st (h.map (S := SlmLike R K) fun _ _ h => h.normalized).flatten .nil
  exact ⟨this.1.reverse, this.2⟩

theorem slmAddStr_like {m m' : Slm} (h : SlmLike R K m m') (s : Str) :
    SlmLike R K (slmAddStr m s none none) (slmAddStr m' s none none) := by
  simp only [slmAddStr, Option.isSome_none, Bool.false_eq_true, if_false]
  rcases h.last with ⟨rfl, rfl⟩ | ⟨x, y, a, b, rfl, rfl, h1, h2⟩
  · exact .cons (.code s) .nil
  · rw [List.getLast?_concat, List.getLast?_concat, List.dropLast_concat, List.dropLast_concat]
    cases h2 with
    | code t => exact h1.append (.cons (.code _) .nil)
    | source c x y e hs ho => exact (h1.append (.cons (.source c x y e hs ho) .nil)).append (.cons (.code _) .nil)
    | single c x y e hs ho => exact (h1.append (.cons (.single c x y e hs ho) .nil)).append (.cons (.code _) .nil)

theorem slmNewStr_like {i i' k k' : Int} (v : Str) (h : R (some i) (some i')) (h' : K (some k) (some k')) :
    SlmLike R K (slmNewStr v (some i) (some k)) (slmNewStr v (some i') (some k')) :=
  .cons (.new _ _ h h') .nil

/-! ## Reading maps -/

/-- The loop states are the same but for the indices. -/
structure LfState.Like (R K : Option Int → Option Int → Prop) (a b : LfState) : Prop where
  rev : SlmLike R K a.rev b.rev
  line : a.curLine = b.curLine
  source : a.curSource = b.curSource
  node : a.nodeLine = b.nodeLine

theorem lfAddCode_like {a b : LfState} (h : a.Like R K b) (c : Str) : (lfAddCode a c).Like R K (lfAddCode b c) := by
  obtain ⟨ra, la, sa, na⟩ := a
  obtain ⟨rb, lb, sb, nb⟩ := b
  obtain ⟨h1, h2, h3, h4⟩ := h
  dsimp only at h1 h2 h3 h4
  subst h2 h3 h4
  simp only [lfAddCode]
  cases h1 with
  | nil => exact ⟨.cons (.code _) .nil, rfl, rfl, rfl⟩
  | cons hx h =>
    cases hx with
    | code s => exact ⟨.cons (.code _) h, rfl, rfl, rfl⟩
    | source c' x y e hs ho =>
      dsimp only
      split
      · exact ⟨.cons (.source _ _ _ _ hs ho) h, rfl, rfl, rfl⟩
      · exact ⟨.cons (.code _) (.cons (.source _ _ _ _ hs ho) h), rfl, rfl, rfl⟩
    | single c' x y e hs ho => exact ⟨.cons (.code _) (.cons (.single _ _ _ _ hs ho) h), rfl, rfl, rfl⟩

theorem lfAddSource_like (hR : OneToOne R) {a b : LfState} (h : a.Like R K b) (c : Str) {s s' o o' : Option Int}
    (hs : R s s') (ho : K o o') (n : Nat) : (lfAddSource a c s o n).Like R K (lfAddSource b c s' o' n) := by
  obtain ⟨ra, la, sa, na⟩ := a
  obtain ⟨rb, lb, sb, nb⟩ := b
  obtain ⟨h1, h2, h3, h4⟩ := h
  dsimp only at h1 h2 h3 h4
  subst h2 h3 h4
  simp only [lfAddSource]
  cases h1 with
  | nil => exact ⟨.cons (.new _ _ hs ho) .nil, rfl, rfl, rfl⟩
  | cons hx h =>
    cases hx with
    | code t => exact ⟨.cons (.new _ _ hs ho) (.cons (.code _) h), rfl, rfl, rfl⟩
    | source c' x y e hs' ho' =>
      simp only [hR _ _ _ _ hs' hs]
      split
      · exact ⟨.cons (.source _ _ _ _ hs' ho') h, rfl, rfl, rfl⟩
      · exact ⟨.cons (.new _ _ hs ho) (.cons (.source _ _ _ _ hs' ho') h), rfl, rfl, rfl⟩
    | single c' x y e hs' ho' =>
      exact ⟨.cons (.new _ _ hs ho) (.cons (.single _ _ _ _ hs' ho') h), rfl, rfl, rfl⟩

theorem lfSegment_like (hR : OneToOne R) {ss ss' cs cs' : List Int} (hs : ∀ i : Nat, R ss[i]? ss'[i]?)
    (hc : ∀ i : Nat, K cs[i]? cs'[i]?) (line : Str) (added : Bool) {a b : LfState} (h : a.Like R K b) (rest : Str) :
    ERel (fun x y => x.1 = y.1 ∧ x.2.1 = y.2.1 ∧ x.2.2.Like R K y.2.2) (lfSegment ss cs line added a rest)
      (lfSegment ss' cs' line added b rest) := by
  unfold lfSegment
  split
  · exact .error _
  · exact .ok ⟨rfl, rfl, h⟩
  · split
    · exact .ok ⟨rfl, rfl, h⟩
    · split
      · exact .error _
      · dsimp only
        rw [h.source, h.line]
        split
        · exact .error _
        · split
          · exact .ok ⟨rfl, rfl, h.rev, rfl, rfl, h.node⟩
          · refine .ok ⟨rfl, rfl, ?_⟩
            dsimp only
            refine lfAddSource_like hR ?_ line (hs _) (hc _) _
            exact ⟨h.rev, rfl, rfl, h.node⟩

theorem lfSegments_like (hR : OneToOne R) {ss ss' cs cs' : List Int} (hs : ∀ i : Nat, R ss[i]? ss'[i]?)
    (hc : ∀ i : Nat, K cs[i]? cs'[i]?) (line : Str) : ∀ (fuel : Nat) (added : Bool) {a b : LfState} (_ : a.Like R K b)
    (rest : Str), ERel (fun x y => x.1 = y.1 ∧ x.2.Like R K y.2) (lfSegments ss cs line fuel added a rest)
      (lfSegments ss' cs' line fuel added b rest)
  | 0, added, a, b, h, [] => .ok ⟨rfl, h⟩
  | _ + 1, added, a, b, h, [] => .ok ⟨rfl, h⟩
  | 0, _, _, _, _, _ :: _ => .error _
  | fuel + 1, added, a, b, h, c :: cs => by
    have h1 := lfSegment_like hR hs hc line added h (c :: cs)
    simp only [lfSegments]
    generalize lfSegment _ _ _ _ a _ = p at h1 ⊢
    generalize lfSegment _ _ _ _ b _ = q at h1 ⊢
    cases h1 with
    | error e => exact .error e
    | @ok x y h1 =>
      obtain ⟨x1, x2, x3⟩ := x
      obtain ⟨y1, y2, y3⟩ := y
      obtain ⟨h1, h2, h3⟩ := h1
      dsimp only at h1 h2 h3 ⊢
      subst h1 h2
      exact lfSegments_like hR hs hc line fuel x2 h3 x1

theorem lfLines_like (hR : OneToOne R) {ss ss' cs cs' : List Int} (hs : ∀ i : Nat, R ss[i]? ss'[i]?)
    (hc : ∀ i : Nat, K cs[i]? cs'[i]?) : ∀ {a b : LfState} (_ : a.Like R K b) (ls ms : List Str),
    ERel (fun x y => x.1.Like R K y.1 ∧ x.2 = y.2) (lfLines ss cs a ls ms) (lfLines ss' cs' b ls ms)
  | a, b, h, ls, [] => by simp only [lfLines]; exact .ok ⟨h, rfl⟩
  | a, b, h, [], _ :: ms => by simp only [lfLines]; exact lfLines_like hR hs hc h [] ms
  | a, b, h, l :: ls, m :: ms => by
    have h1 : ERel (fun x y => x.Like R K y) (lfLine ss cs a l m) (lfLine ss' cs' b l m) := by
      unfold lfLine
      split
      · exact .ok (lfAddCode_like h l)
      · have h1 := lfSegments_like hR hs hc l m.length false h m
        generalize lfSegments _ _ _ _ _ a _ = p at h1 ⊢
        generalize lfSegments _ _ _ _ _ b _ = q at h1 ⊢
        cases h1 with
        | error e => exact .error e
        | @ok x y h1 =>
          obtain ⟨x1, x2⟩ := x
          obtain ⟨y1, y2⟩ := y
          obtain ⟨h1, h2⟩ := h1
          dsimp only at h1 h2 ⊢
          subst h1
          refine .ok ?_
          split
          · exact h2
          · exact lfAddCode_like h2 l
    simp only [lfLines]
    generalize lfLine _ _ a _ _ = p at h1 ⊢
    generalize lfLine _ _ b _ _ = q at h1 ⊢
    cases h1 with
    | error e => exact .error e
    | ok h1 => exact lfLines_like hR hs hc h1 ls ms

theorem lfRest_like : ∀ {a b : LfState} (_ : a.Like R K b) (ls : List Str), (lfRest a ls).Like R K (lfRest b ls)
  | a, b, h, [] => h
  | a, b, h, l :: ls => by
    simp only [lfRest]
    split
    · exact lfRest_like (lfAddCode_like h l) ls
    · exact lfAddCode_like h _

theorem slmFromString_like (hR : OneToOne R) {ss ss' cs cs' : List Int} (hs : ∀ i : Nat, R ss[i]? ss'[i]?)
    (hc : ∀ i : Nat, K cs[i]? cs'[i]?) (v mp : Str) :
    ERel (SlmLike R K) (slmFromString v ss cs mp) (slmFromString v ss' cs' mp) := by
  have h1 := lfLines_like hR hs hc (a := { rev := [], curLine := 1, curSource := 0, nodeLine := 0 })
    (b := { rev := [], curLine := 1, curSource := 0, nodeLine := 0 }) ⟨.nil, rfl, rfl, rfl⟩ (splitKeep '\n' v) (splitDrop ';' mp)
  unfold slmFromString
  generalize lfLines ss _ _ _ _ = p at h1 ⊢
  generalize lfLines ss' _ _ _ _ = q at h1 ⊢
  cases h1 with
  | error e => exact .error e
  | @ok x y h1 =>
    obtain ⟨x1, x2⟩ := x
    obtain ⟨y1, y2⟩ := y
    obtain ⟨h1, h2⟩ := h1
    dsimp only at h1 h2 ⊢
    subst h2
    exact .ok (lfRest_like h1 x2).rev.reverse

/-! ## Trees -/

/-- The sources are the same but for their indices; `SourceMapSource`s have data. -/
inductive Tree.Like (R K : Option Int → Option Int → Prop) : Tree → Tree → Prop where
  | str (s : Str) : Tree.Like R K (.str s) (.str s)
  | raw (v : Str) : Tree.Like R K (.raw v) (.raw v)
  | original (v : Str) {i i' k k' : Int} : R (some i) (some i') → K (some k) (some k') →
      Tree.Like R K (.original v i k) (.original v i' k')
  | l2l (v : Str) {i i' k k' : Int} : R (some i) (some i') → K (some k) (some k') →
      Tree.Like R K (.l2l v i k) (.l2l v i' k')
  | sms {s s' : Sms} {d d' : SmData} : s.value = s'.value → R (some s.name) (some s'.name) →
      K (some s.valueIdx) (some s'.valueIdx) → s.map.data = some d → s'.map.data = some d' →
      d.mappings = d'.mappings → (∀ i : Nat, R d.sources[i]? d'.sources[i]?) →
      (∀ i : Nat, K d.contents[i]? d'.contents[i]?) → Tree.Like R K (.sms s) (.sms s')
  | prefixed (p : Str) {t t' : Tree} : Tree.Like R K t t' → Tree.Like R K (.prefixed p t) (.prefixed p t')
  | replace (cs : List Call) {t t' : Tree} : Tree.Like R K t t' → Tree.Like R K (.replace t cs) (.replace t' cs)
  | concat {ts ts' : List Tree} : ts.length = ts'.length →
      (∀ (k : Nat) (t t' : Tree), ts[k]? = some t → ts'[k]? = some t' → Tree.Like R K t t') →
      Tree.Like R K (.concat ts) (.concat ts')

/-- Items of a concatenation that are the same but for their indices. -/
inductive ItemLike (R K : Option Int → Option Int → Prop) : Str ⊕ Slm → Str ⊕ Slm → Prop where
  | text (s : Str) : ItemLike R K (.inl s) (.inl s)
  | map {m m' : Slm} : SlmLike R K m m' → ItemLike R K (.inr m) (.inr m')

theorem concatMaps_like {xs xs' : List (Str ⊕ Slm)} (h : Each2 (ItemLike R K) xs xs') :
    ∀ {m m' : Slm}, SlmLike R K m m' → SlmLike R K (concatMaps m xs) (concatMaps m' xs') := by
  induction h with
  | nil => intro m m' h; exact h
  | cons hx _ ih =>
    intro m m' h
    cases hx with
    | text s => exact ih (slmAddStr_like h s)
    | map hm => exact ih (h.append hm)

theorem replaceListMap_like (hR : OneToOne R) (hK : OneToOne K) {m m' : Slm} (h : SlmLike R K m m') (rs : List Repl) :
    SlmLike R K (replaceListMap m rs) (replaceListMap m' rs) := by
  obtain ⟨h1, h2⟩ := slmMapGenerated_like rmMap { cur := 0, pending := rs.reverse, remove := 0 } hR hK h
  simp only [replaceListMap]
  generalize slmMapGenerated rmMap { cur := 0, pending := rs.reverse, remove := 0 } m = p at h1 h2 ⊢
  generalize slmMapGenerated rmMap { cur := 0, pending := rs.reverse, remove := 0 } m' = q at h1 h2 ⊢
  obtain ⟨p1, p2⟩ := p
  obtain ⟨q1, q2⟩ := q
  dsimp only at h1 h2 ⊢
  subst h2
  split
  · exact h1
  · exact slmAddStr_like h1 _

theorem ERel.map {ε α β γ δ : Type _} {P : α → β → Prop} {Q : γ → δ → Prop} {f : α → γ} {g : β → δ}
    {x : Except ε α} {y : Except ε β} (h : ERel P x y) (hf : ∀ a b, P a b → Q (f a) (g b)) :
    ERel Q (x.map f) (y.map g) := by
  cases h with
  | error e => exact .error e
  | ok h => exact .ok (hf _ _ h)

theorem allM_like {α β γ δ : Type _} {P : α → β → Prop} {Q : γ → δ → Prop} {f : α → M γ} {g : β → M δ}
    {l : List α} {l' : List β} (h : Each2 P l l') (hf : ∀ a b, P a b → ERel Q (f a) (g b)) :
    ERel (Each2 Q) (allM f l) (allM g l') := by
  induction h with
  | nil => exact .ok .nil
  | @cons a b l l' hab _ ih =>
    have h1 := hf _ _ hab
    simp only [allM]
    generalize f a = x at h1 ⊢
    generalize g b = y at h1 ⊢
    cases h1 with
    | error e => exact .error e
    | ok h1 =>
      generalize allM f l = x at ih ⊢
      generalize allM g l' = y at ih ⊢
      cases ih with
      | error e => exact .error e
      | ok h2 => exact .ok (.cons h1 h2)

mutual
  /-- No `PrefixSource` and no `ReplaceSource`. -/
  def Tree.Unwritten : Tree → Prop
    | .prefixed .. | .replace .. => False
    | .concat ts => Tree.AllUnwritten ts
    | _ => True
  def Tree.AllUnwritten : List Tree → Prop
    | [] => True
    | t :: ts => t.Unwritten ∧ Tree.AllUnwritten ts
end

theorem Tree.AllUnwritten.get : ∀ {ts : List Tree} {k : Nat} {t : Tree}, Tree.AllUnwritten ts → ts[k]? = some t →
    t.Unwritten
  | t :: ts, 0, _, h, e => by cases e; exact h.1
  | t :: ts, k + 1, _, h, e => Tree.AllUnwritten.get h.2 (by simpa using e)

theorem Tree.Like.listMap (hR : OneToOne R) {t t' : Tree} (h : t.Like R K t') (hK : OneToOne K ∨ t.Unwritten)
    (c mod : Bool) : ERel (SlmLike R K) (t.listMap c mod) (t'.listMap c mod) := by
  induction h with
  | str s => exact .error _
  | raw v => exact .ok (.cons (.code _) .nil)
  | original v h1 h2 => exact .ok (slmNewStr_like v h1 h2)
  | l2l v h1 h2 => exact .ok (slmNewStr_like v h1 h2)
  | @sms s s' d d' hv hn hk hd hd' hm hs hc =>
    simp only [Tree.listMap, Sms.listMap]
    rw [hv]
    split
    · exact .ok (slmNewStr_like _ hn hk)
    · simp only [SmHolder.getData, hd, hd', hm]
      have := slmFromString_like hR hs hc s'.value d'.mappings
      generalize slmFromString _ d.sources _ _ = x at this ⊢
      generalize slmFromString _ d'.sources _ _ = y at this ⊢
      cases this with
      | error e => exact .error e
      | ok h => exact .ok h
  | prefixed p _ ih =>
    have hK := hK.resolve_right id
    exact (ih (.inl hK)).map fun _ _ h => (slmMapGenerated_like _ _ hR hK h).1
  | replace cs _ ih =>
    have hK := hK.resolve_right id
    exact (ih (.inl hK)).map fun _ _ h => replaceListMap_like hR hK h _
  | @concat ts ts' hl _ ih =>
    simp only [Tree.listMap, Tree.listMaps_eq]
    refine ERel.map (P := Each2 (ItemLike R K)) ?_ fun _ _ h => concatMaps_like h .nil
    refine allM_like (P := fun t t' => ERel (ItemLike R K) (Tree.itemMap c mod t) (Tree.itemMap c mod t')) ?_ fun _ _ h => h
    refine Each2.of_get hl fun k t t' e e' => ?_
    have h1 := ih k t t' e e' (hK.imp_right fun h => h.get e)
    rename_i hh
    have h2 := hh k t t' e e'
    cases h2 with
    | str s => exact .ok (.text s)
    | _ => exact h1.map fun _ _ h => .map h

/-! ## Writing maps -/

/-- The contexts are the same but for the indices. -/
structure MapCtx.Like (R K : Option Int → Option Int → Prop) (a b : MapCtx) : Prop where
  sources : Each2 (fun p q : Option Int × Nat × Option Int => R p.1 q.1 ∧ p.2.1 = q.2.1 ∧ K p.2.2 q.2.2) a.sources b.sources
  line : a.origLine = b.origLine
  source : a.source = b.source
  unfinished : a.unfinished = b.unfinished

theorem lookup_like (hR : OneToOne R) {l l' : List (Option Int × Nat × Option Int)} {s s' : Option Int} (hs : R s s')
    (h : Each2 (fun p q : Option Int × Nat × Option Int => R p.1 q.1 ∧ p.2.1 = q.2.1 ∧ K p.2.2 q.2.2) l l') :
    OptRel (fun x y : Nat × Option Int => x.1 = y.1) (l.lookup s) (l'.lookup s') := by
  induction h with
  | nil => exact .none
  | @cons p q l l' hpq _ ih =>
    obtain ⟨p1, p2⟩ := p
    obtain ⟨q1, q2⟩ := q
    obtain ⟨h1, h2, -⟩ := hpq
    dsimp only at h1 h2
    have hb : (s == p1) = (s' == q1) := by
      rw [Bool.eq_iff_iff, beq_iff_eq, beq_iff_eq]
      exact hR _ _ _ _ hs h1
    simp only [List.lookup_cons, hb]
    split
    · exact .some h2
    · exact ih

theorem MapCtx.Like.ensure (hR : OneToOne R) {a b : MapCtx} (h : a.Like R K b) {s s' o o' : Option Int} (hs : R s s')
    (ho : K o o') : (a.ensureSource s o).1 = (b.ensureSource s' o').1 ∧
      (a.ensureSource s o).2.Like R K (b.ensureSource s' o').2 := by
  have h1 := lookup_like hR hs h.sources
  simp only [MapCtx.ensureSource]
  generalize a.sources.lookup s = x at h1 ⊢
  generalize b.sources.lookup s' = y at h1 ⊢
  cases h1 with
  | some h1 => exact ⟨h1, h⟩
  | none =>
    refine ⟨h.sources.length, ?_, h.line, h.source, h.unfinished⟩
    exact h.sources.append (.cons ⟨hs, h.sources.length, ho⟩ .nil)

theorem headSeg_like {a b : MapCtx} (h : a.Like R K b) (i n : Nat) : headSeg a i n = headSeg b i n := by
  simp only [headSeg, h.line, h.source, h.unfinished]

theorem LNode.Like.mappings (hR : OneToOne R) {a b : MapCtx} (h : a.Like R K b) {n n' : LNode} (hn : n.Like R K n') :
    (n.mappings a).1 = (n'.mappings b).1 ∧ (n.mappings a).2.Like R K (n'.mappings b).2 := by
  cases hn with
  | code s =>
    simp only [LNode.mappings, codeMappings, h.unfinished]
    split
    · exact ⟨rfl, h.sources, h.line, h.source, rfl⟩
    · exact ⟨rfl, h.sources, h.line, h.source, rfl⟩
  | source c x y e hs ho =>
    obtain ⟨h1, h2⟩ := h.ensure hR hs ho
    simp only [LNode.mappings, LSource.mappings]
    split
    · exact ⟨rfl, h⟩
    · rw [h1, headSeg_like h2]
      exact ⟨rfl, h2.sources, rfl, rfl, rfl⟩
  | single c x y e hs ho =>
    obtain ⟨h1, h2⟩ := h.ensure hR hs ho
    simp only [LNode.mappings, LSingle.mappings]
    split
    · exact ⟨rfl, h⟩
    · rw [h1, headSeg_like h2]
      exact ⟨rfl, h2.sources, rfl, rfl, rfl⟩

theorem slmMappings_like (hR : OneToOne R) {m m' : Slm} (h : SlmLike R K m m') : ∀ {a b : MapCtx}, a.Like R K b →
    (slmMappings a m).1 = (slmMappings b m').1 ∧ (slmMappings a m).2.Like R K (slmMappings b m').2 := by
  induction h with
  | nil => intro a b h; exact ⟨rfl, h⟩
  | cons hn _ ih =>
    intro a b h
    obtain ⟨h1, h2⟩ := hn.mappings hR h
    obtain ⟨h3, h4⟩ := ih h2
    simp only [slmMappings]
    exact ⟨by rw [h1, h3], h4⟩

theorem slmText_like {m m' : Slm} (h : SlmLike R K m m') : slmText m = slmText m' := by
  unfold slmText
  induction h with
  | nil => rfl
  | cons hn _ ih =>
    simp only [List.map_cons, List.flatten_cons, ih]
    cases hn <;> rfl

/-- The maps are the same but for the indices. -/
theorem slmToStringWithSourceMap_like (hR : OneToOne R) {m m' : Slm} (h : SlmLike R K m m') :
    (slmToStringWithSourceMap m none).source = (slmToStringWithSourceMap m' none).source ∧
    (slmToStringWithSourceMap m none).map.mappings = (slmToStringWithSourceMap m' none).map.mappings ∧
    Each2 (fun i i' => ∃ s s', R s s' ∧ i = s.getD (-1) ∧ i' = s'.getD (-1))
      (slmToStringWithSourceMap m none).map.sources (slmToStringWithSourceMap m' none).map.sources ∧
    ∃ cs cs', Each2 K cs cs' ∧ (slmToStringWithSourceMap m none).map.sourcesContent = cs.filterMap id ∧
      (slmToStringWithSourceMap m' none).map.sourcesContent = cs'.filterMap id := by
  obtain ⟨h1, h2⟩ := slmMappings_like hR h (a := MapCtx.new) (b := MapCtx.new) ⟨.nil, rfl, rfl, rfl⟩
  refine ⟨slmText_like h, h1, ?_, _, _, h2.sources.map (f := fun p => p.2.2) (g := fun p => p.2.2) fun _ _ h => h.2.2, ?_, ?_⟩
  · exact h2.sources.map fun p q h => ⟨p.1, q.1, h.1, rfl, rfl⟩
  · simp [slmToStringWithSourceMap, List.filterMap_map]
  · simp [slmToStringWithSourceMap, List.filterMap_map]

end WS
