import Verif.Props.C75
/-!
# C75: why the map of `Spec/Canonical.lean` is the smallest

The encoder of the specification is the inverse of the decoder, its map says what it is made from, and every
other map that says the same has at least as many segments, sources and names.
-/

namespace WS
open Spec

/-! ## Spec -/

/-- The map attributes every character of the text as said (as in `ShowsPlaces`). -/
def Spec.MapOf (l ns : List JVal) (s : List Char) (m : PlacedMarks) : Prop :=
  ∃ ps, points (idTable l.length) (idTable ns.length) s = some ps ∧
    ∀ i c o, m[i]? = some (c, o) →
      (lookup ps (posAfter ((m.take i).map Prod.fst)).1 (posAfter ((m.take i).map Prod.fst)).2).map
        (fun x => (l[x.source.toNat]?, x.line, x.col, x.name.map fun n => ns[n.toNat]?)) =
      o.map fun p => (some p.file, p.line, p.col, p.name.map some)

/-- Segments are in the order of lines, none is before line `l`. -/
def Spec.Ordered : Nat → List Seg → Prop
  | _, [] => True
  | l, s :: ss => l ≤ s.line ∧ Ordered s.line ss

/-! ## Writing and reading -/

theorem readSeg_write (a : Acc) (s : Seg) : readSeg s.line a (s.write a).1 = some ([s], (s.write a).2) ∧
    (',' ∉ (s.write a).1 ∧ ';' ∉ (s.write a).1) := by
  obtain ⟨l, c, o⟩ := s
  match o with
  | none =>
    have hf := vlqEncode_fields (c - a.col)
    rw [vlqEncode_write] at hf
    refine ⟨?_, sep_of_fields hf⟩
    simp only [Seg.write]
    rw [readSeg, hf]
    simp only [show a.col + (c - a.col) = c by omega]
  | some (si, ol, oc, none) =>
    have hf := fields_encode (c - a.col) _ _ (fields_encode (si - a.source) _ _
      (fields_encode (ol - a.line) _ _ (vlqEncode_fields (oc - a.origCol))))
    simp only [vlqEncode_write] at hf
    refine ⟨?_, ?_⟩
    · simp only [Seg.write, List.append_assoc]
      rw [readSeg, hf]
      simp only [show a.col + (c - a.col) = c by omega, show a.source + (si - a.source) = si by omega,
        show a.line + (ol - a.line) = ol by omega, show a.origCol + (oc - a.origCol) = oc by omega]
    · simp only [Seg.write, List.append_assoc]
      exact sep_of_fields hf
  | some (si, ol, oc, some ni) =>
    have hf := fields_encode (c - a.col) _ _ (fields_encode (si - a.source) _ _
      (fields_encode (ol - a.line) _ _ (fields_encode (oc - a.origCol) _ _ (vlqEncode_fields (ni - a.name)))))
    simp only [vlqEncode_write] at hf
    refine ⟨?_, ?_⟩
    · simp only [Seg.write, List.append_assoc]
      rw [readSeg, hf]
      simp only [show a.col + (c - a.col) = c by omega, show a.source + (si - a.source) = si by omega,
        show a.line + (ol - a.line) = ol by omega, show a.origCol + (oc - a.origCol) = oc by omega,
        show a.name + (ni - a.name) = ni by omega]
    · simp only [Seg.write, List.append_assoc]
      exact sep_of_fields hf

theorem writeSegs_sep (l : Nat) (a : Acc) : ∀ (ss : List Seg), Ordered l ss → AtSep (writeSegs l true a ss)
  | [], _ => trivial
  | s :: ss, h => by
    rw [writeSegs]
    split
    · exact .inl rfl
    · have : s.line - l = s.line - l - 1 + 1 := by have := h.1; omega
      rw [this, List.replicate_succ]
      exact .inr rfl

theorem decodeMid_write : ∀ (ss : List Seg) (l : Nat) (more : Bool) (a : Acc), Ordered l ss →
    decodeMid l a (writeSegs l more a ss) = some ss
  | [], l, more, a, _ => decodeMid_nil l a
  | s :: ss, l, more, a, h => by
    rw [writeSegs]
    by_cases e : s.line = l
    · rw [if_pos e]
      have drop : decodeMid l a ((if more = true then [','] else []) ++ (s.write a).1 ++ writeSegs l true (s.write a).2 ss) =
          decodeMid l a ((s.write a).1 ++ writeSegs l true (s.write a).2 ss) := by
        cases more with
        | true => exact decodeMid_comma l a _
        | false => rfl
      have hr := readSeg_write a s
      rw [e] at hr
      have h' : Ordered l ss := e ▸ h.2
      rw [drop, decodeMid_seg hr.2 hr.1 _ (writeSegs_sep _ _ _ h'), decodeMid_write ss l true _ h']
      rfl
    · rw [if_neg e, List.append_assoc, decodeMid_lines]
      have hl := h.1
      have hr := readSeg_write { a with col := 0 } s
      rw [if_neg (by omega), show l + (s.line - l) = s.line by omega, decodeMid_seg hr.2 hr.1 _ (writeSegs_sep _ _ _ h.2),
        decodeMid_write ss s.line true _ h.2]
      rfl

/-- What is written is read. -/
theorem C75_encode (ss : List Seg) (h : Ordered 1 ss) : decode (encode ss) = some ss := by
  rw [decode_eq]
  exact decodeMid_write ss 1 false {} h

/-! ## Places of changes -/

theorem changes_after {α : Type} [DecidableEq α] {q : (Nat × Nat) × Option α} :
    ∀ {m : List (Char × Option α)} {last : Option α} {p : Nat × Nat}, q ∈ changes last p m →
    p.1 < q.1.1 ∨ p.1 = q.1.1 ∧ p.2 ≤ q.1.2
  | (c, o) :: m, last, p, h => by
    rw [changes, List.mem_append] at h
    rcases h with h | h
    · split at h
      · cases h
      · simp only [List.mem_cons, List.not_mem_nil, or_false] at h
        subst h
        exact .inr ⟨rfl, Nat.le_refl _⟩
    · have := changes_after h
      unfold advance at this
      split at this <;> dsimp only at this <;> omega

theorem changes_nodup {α : Type} [DecidableEq α] : ∀ (m : List (Char × Option α)) (last : Option α) (p : Nat × Nat),
    ((changes last p m).map Prod.fst).Nodup
  | [], _, _ => List.nodup_nil
  | (c, o) :: m, last, p => by
    rw [changes]
    have ih := changes_nodup m (if c = '\n' then none else o) (advance p c)
    split
    · exact ih
    · refine List.nodup_cons.2 ⟨fun h => ?_, ih⟩
      obtain ⟨q, hq, e⟩ := List.mem_map.1 h
      have := changes_after hq
      rw [e] at this
      unfold advance at this
      split at this <;> dsimp only at this <;> omega

theorem changes_ordered {α : Type} [DecidableEq α] (f : (Nat × Nat) × Option α → Seg) (hf : ∀ q, (f q).line = q.1.1) :
    ∀ (m : List (Char × Option α)) (last : Option α) (p : Nat × Nat) (l : Nat), l ≤ p.1 →
      Ordered l ((changes last p m).map f)
  | [], _, _, _, _ => trivial
  | (c, o) :: m, last, p, l, h => by
    have ha : p.1 ≤ (advance p c).1 := by unfold advance; split <;> simp
    rw [changes]
    split
    · exact changes_ordered f hf m _ _ l (by omega)
    · refine ⟨by rw [hf]; exact h, ?_⟩
      rw [hf]
      exact changes_ordered f hf m _ _ p.1 ha

theorem segsOf_ordered (m : PlacedMarks) : Ordered 1 (segsOf m) :=
  changes_ordered _ (fun _ => rfl) m none (1, 0) 1 (Nat.le_refl _)

/-! ## The smallest -/

theorem pointAt_zero {l : Nat} : ∀ {ps : List Point}, (∀ q ∈ ps, (q.line, q.col) ≠ (l, 0)) → pointAt ps l 0 = none
  | [], _ => rfl
  | p :: ps, h => by
    rw [pointAt, pointAt_zero fun q hq => h q (by simp [hq])]
    dsimp only
    rw [if_neg]
    rintro ⟨h1, h2⟩
    exact h p (by simp) (by rw [h1, Nat.le_zero.1 h2])

theorem pointAt_succ {l c : Nat} : ∀ {ps : List Point}, (∀ q ∈ ps, (q.line, q.col) ≠ (l, c + 1)) →
    pointAt ps l (c + 1) = pointAt ps l c
  | [], _ => rfl
  | p :: ps, h => by
    rw [pointAt, pointAt, pointAt_succ fun q hq => h q (by simp [hq])]
    have e : (p.line = l ∧ p.col ≤ c + 1) ↔ (p.line = l ∧ p.col ≤ c) := by
      constructor
      · rintro ⟨h1, h2⟩
        refine ⟨h1, ?_⟩
        have : p.col ≠ c + 1 := fun e => h p (by simp) (by rw [h1, e])
        omega
      · rintro ⟨h1, h2⟩; exact ⟨h1, by omega⟩
    cases pointAt ps l c with
    | some q => rfl
    | none => simp only [e]

/-- Every change needs a point of its own. -/
theorem change_point {α β : Type} [DecidableEq α] {ps : List Point} {g : Origin → β} {f : α → β} :
    ∀ (m : List (Char × Option α)) (last : Option α) (p : Nat × Nat),
    ((∀ q ∈ ps, (q.line, q.col) ≠ p) → (lookup ps p.1 p.2).map g = last.map f) →
    (∀ a b, f a = f b → a = b) →
    (∀ i c o, m[i]? = some (c, o) → (lookup ps (posFrom p ((m.take i).map Prod.fst)).1
      (posFrom p ((m.take i).map Prod.fst)).2).map g = o.map f) →
    ∀ x ∈ changes last p m, ∃ q ∈ ps, (q.line, q.col) = x.1
  | [], _, _, _, _, _, x, hx => by cases hx
  | (c, o) :: m, last, p, h0, hf, h, x, hx => by
    rw [changes, List.mem_append] at hx
    have h1 := h 0 c o rfl
    simp only [List.take_zero, List.map_nil, posFrom, List.foldl_nil] at h1
    rcases hx with hx | hx
    · split at hx
      · cases hx
      · rename_i ne
        simp only [List.mem_cons, List.not_mem_nil, or_false] at hx
        subst hx
        refine Classical.byContradiction fun hn => ne ?_
        have := h0 fun q hq e => hn ⟨q, hq, e⟩
        rw [h1] at this
        cases o <;> cases last <;> first | rfl | (cases this; done) | skip
        rename_i a b
        rw [hf a b (by simpa using this)]
    · refine change_point (g := g) m _ _ ?_ hf (fun i c' o' hi => ?_) x hx
      · unfold advance
        by_cases hc : c = '\n'
        · rw [if_pos hc, if_pos hc]
          intro hn
          rw [lookup, pointAt_zero hn]
          rfl
        · rw [if_neg hc, if_neg hc]
          intro hn
          rw [lookup, pointAt_succ hn]
          exact h1
      · have := h (i + 1) c' o' hi
        simpa [posFrom] using this

theorem length_le_of_each {α : Type} [DecidableEq α] : ∀ (l r : List α), l.Nodup → (∀ x ∈ l, x ∈ r) → l.length ≤ r.length
  | [], r, _, _ => Nat.zero_le _
  | a :: l, r, hn, h => by
    obtain ⟨ha, hn⟩ := List.nodup_cons.1 hn
    have := length_le_of_each l (r.erase a) hn fun x hx => by
      refine (List.mem_erase_of_ne ?_).2 (h x (by simp [hx]))
      rintro rfl
      exact ha hx
    have hr := List.length_erase_of_mem (h a (by simp))
    have : 0 < r.length := List.length_pos_of_mem (h a (by simp))
    rw [List.length_cons]
    omega

theorem resolveAll_size {ss ns : List Int} : ∀ {gs : List Seg} {ps : List Point}, resolveAll ss ns gs = some ps →
    ps.length = gs.length
  | [], ps, h => by cases h; rfl
  | g :: gs, ps, h => by
    simp only [resolveAll] at h
    split at h
    · rename_i p qs _ h2
      cases h
      rw [List.length_cons, List.length_cons, resolveAll_size h2]
    · cases h

theorem firsts_nodup {β : Type} [DecidableEq β] : ∀ (l s : List β), (firsts s l).Nodup
  | [], _ => List.nodup_nil
  | b :: l, s => by
    rw [firsts]
    split
    · exact firsts_nodup l s
    · refine List.nodup_cons.2 ⟨fun h => ?_, firsts_nodup l _⟩
      exact ((mem_firsts _ _).1 h).2 (by simp)

/-- Every map that says of every character what `m` says has at least as many segments, sources and names as
the one of C75, which itself says it. -/
theorem C75_least (m : PlacedMarks) (l ns : List JVal) (s : List Char) (segs : List Seg) (h : MapOf l ns s m)
    (hs : decode s = some segs) :
    (segsOf m).length ≤ segs.length ∧ (filesOf m).length ≤ l.length ∧ (namesOf m).length ≤ ns.length := by
  obtain ⟨ps, hp, hat⟩ := h
  rw [points, hs] at hp
  have hinj : ∀ a b : Place, (some a.file, a.line, a.col, a.name.map some) = (some b.file, b.line, b.col, b.name.map some) →
      a = b := by
    intro a b e
    have := placed_inj (o := some a) (o' := some b) (congrArg some e)
    exact Option.some.inj this
  have origin : ∀ p ∈ m, ∀ o, p.2 = some o → ∃ x : Origin, l[x.source.toNat]? = some o.file ∧
      (x.name.map fun n => ns[n.toNat]?) = o.name.map some := by
    rintro ⟨c, o'⟩ hpm o rfl
    obtain ⟨i, hi⟩ := List.getElem?_of_mem hpm
    have := hat i c (some o) hi
    obtain ⟨x, -, e⟩ := Option.map_eq_some_iff.1 (this.trans (Option.map_some ..))
    simp only [Prod.mk.injEq] at e
    exact ⟨x, e.1, e.2.2.2⟩
  refine ⟨?_, ?_, ?_⟩
  · rw [← resolveAll_size hp]
    have := change_point (ps := ps) (f := fun p : Place => (some p.file, p.line, p.col, p.name.map some)) m none (1, 0)
      (fun hn => by rw [lookup, pointAt_zero hn]; rfl) hinj hat
    have := length_le_of_each _ (ps.map fun q => (q.line, q.col)) (changes_nodup m none (1, 0)) (by
      intro x hx
      obtain ⟨y, hy, rfl⟩ := List.mem_map.1 hx
      obtain ⟨q, hq, e⟩ := this y hy
      exact List.mem_map.2 ⟨q, hq, e⟩)
    simpa [segsOf] using this
  · refine length_le_of_each _ _ (firsts_nodup _ _) fun x hx => ?_
    obtain ⟨p, hpm, e⟩ := List.mem_filterMap.1 ((mem_firsts _ _).1 hx).1
    obtain ⟨o, ho, rfl⟩ := Option.map_eq_some_iff.1 e
    obtain ⟨y, h1, -⟩ := origin p hpm o ho
    exact List.mem_of_getElem? h1
  · refine length_le_of_each _ _ (firsts_nodup _ _) fun x hx => ?_
    obtain ⟨p, hpm, e⟩ := List.mem_filterMap.1 ((mem_firsts _ _).1 hx).1
    obtain ⟨o, ho, e⟩ := Option.bind_eq_some_iff.1 e
    obtain ⟨y, -, h2⟩ := origin p hpm o ho
    rw [e, Option.map_some] at h2
    obtain ⟨n, -, h3⟩ := Option.map_eq_some_iff.1 h2
    exact List.mem_of_getElem? h3

/-- C75: the pair of an object without `ReplaceSource` and empty strings says what the object says, and no map
that says it is smaller. -/
theorem C75_smallest_partial (ops more : List JOp) (w w1 w2 : World) (j k : Nat) (module_ : Bool)
    (r : World.run ops = .ok w) (hp : ∀ op ∈ ops, op.Proper) (hf : ∀ op ∈ ops, Spec.JOp.FewLines op)
    (hr : ∀ op ∈ ops, Spec.JOp.Exact op) (hu : Unreplaced (jthings ops) false (.obj j))
    (e : (JOp.sourceAndMap j true module_).run w = .ok (.pair k, w1)) (e2 : w1.runFrom more = .ok w2)
    (hg : ∀ op ∈ more, ¬ op.gives k) (hset : ∀ a, .set k a ∉ more) :
    ∃ m l ns s segs, (∀ m', JPlaces (jthings ops) (jmade ops) (.obj j) m' ↔ m' = m) ∧
      Reads w2 k .sources (.list l) ∧ Reads w2 k .names (.list ns) ∧ Reads w2 k .mappings (.text s) ∧
      MapOf l ns s m ∧ decode s = some segs ∧
      ∀ l' ns' s' segs', MapOf l' ns' s' m → decode s' = some segs' →
        segs.length ≤ segs'.length ∧ l.length ≤ l'.length ∧ ns.length ≤ ns'.length := by
  obtain ⟨m, h1, h2⟩ := C75_partial ops more w w1 w2 j k module_ r hp hf hr hu e e2 hg hset
  obtain ⟨-, l, ns, s, ps, g1, g2, g3, g4, g5⟩ := C63_exact_partial ops more w w1 w2 j k module_ m r hp hf hr hu
    ((h1 m).2 rfl) e e2 hg hset
  obtain ⟨-, k1, k2, k3⟩ := h2
  cases reads_unique g1 k1
  cases reads_unique g2 k2
  cases reads_unique g3 k3
  exact ⟨m, _, _, _, _, h1, k1, k2, k3, ⟨ps, g4, g5⟩, C75_encode _ (segsOf_ordered m),
    fun l' ns' s' segs' h hs => C75_least m l' ns' s' segs' h hs⟩

/-! Non-trivial case: the map of an object with an empty string says the same as the smallest one, with more. -/

example : decode "AAAA,C,AAAA".toList = some [⟨1, 0, some (0, 0, 0, none)⟩, ⟨1, 1, none⟩, ⟨1, 1, some (0, 0, 0, none)⟩] ∧
    segsOf c75Marks = [⟨1, 0, some (0, 0, 0, none)⟩] := by decide +kernel
example : MapOf [some "f".toList] [] "AAAA,C,AAAA".toList c75Marks := by
  refine ⟨[⟨1, 0, some ⟨0, 1, 0, none⟩⟩, ⟨1, 1, none⟩, ⟨1, 1, some ⟨0, 1, 0, none⟩⟩], by decide +kernel, ?_⟩
  intro i c o h
  match i with
  | 0 => cases h; rfl
  | 1 => cases h; rfl
  | i + 2 => simp [c75Marks] at h

end WS
