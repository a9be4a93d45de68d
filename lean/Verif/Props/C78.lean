import Verif.Props.C75Given
import Verif.Props.C48
/-!
# C78: a pair made a source again gives the same pair

Claim: if the text and the map of a pair with columns are given to a new `SourceMapSource`, `sourceAndMap()` of
that reads `source`, `sources`, `names` and `mappings` exactly as those of the pair did, and so on however often
this is repeated. For any well-formed pair that attributes its characters, the first such round gives the
smallest map that says the same, and further rounds change nothing.
-/

namespace WS
open Spec

/-! ## Spec -/

/-- The text and the numbers are not too large for the library, and all files have names. -/
def Spec.Sizable (m : PlacedMarks) : Prop :=
  m.length ≤ 4294967295 ∧
    ∀ c o, (c, some o) ∈ m → o.line ≤ 4294967296 ∧ o.col ≤ 4294967295 ∧ o.file ≠ none

/-- Programs of the kind of C66. -/
structure Spec.Plainly (ops made : List JOp) (w : World) : Prop where
  run : World.run ops = .ok w
  proper : ∀ op ∈ ops, op.Proper
  few : ∀ op ∈ ops, Spec.JOp.FewLines op
  names : NamesFit ops
  simple : ∀ op ∈ ops, Spec.JOp.Simple op
  spelt : MadeFrom World.empty ops made
  exact_ : ∀ op ∈ made, Spec.JOp.Exact op

/-- The program is continued by rounds: the text and the map of the last pair are given to a new
`SourceMapSource`, whose pair is the next one. Between the rounds there may be further statements, but none that
gives or assigns to the last pair. -/
inductive Spec.Again (ops : List JOp) (k : Nat) : List JOp → Nat → Prop where
  | start : Again ops k ops k
  | more {ops' more made : List JOp} {k' : Nat} {w w' : World} : Again ops k ops' k' → World.run ops' = .ok w →
      w.runFrom more = .ok w' → Plainly (ops' ++ more) made w' → (∀ op ∈ more, ¬ op.gives k') →
      (∀ a, .set k' a ∉ more) → Again ops k (ops' ++ more) k'
  | round {ops' : List JOp} {k' k'' : Nat} {w w1 w2 : World} {v n : List Char} {o : Option (List Char)}
      {module_ : Bool} {a : JAnswer} : Again ops k ops' k' → World.run ops' = .ok w →
      Reads w k' .source (.text v) → (JOp.newSms v n (.emitted k') o none).run w = .ok (a, w1) →
      (JOp.sourceAndMap (jthings ops').length true module_).run w1 = .ok (.pair k'', w2) →
      Again ops k (ops' ++ [.newSms v n (.emitted k') o none, .sourceAndMap (jthings ops').length true module_]) k''

/-! ## The smallest map is well-formed -/

theorem changes_sorted {α : Type} [DecidableEq α] : ∀ (m : List (Char × Option α)) (last : Option α) (p : Nat × Nat),
    (changes last p m).Pairwise fun a b => a.1.1 < b.1.1 ∨ a.1.1 = b.1.1 ∧ a.1.2 < b.1.2
  | [], _, _ => List.Pairwise.nil
  | (c, o) :: m, last, p => by
    rw [changes]
    have ih := changes_sorted m (if c = '\n' then none else o) (advance p c)
    split
    · exact ih
    · refine List.pairwise_cons.2 ⟨fun q hq => ?_, ih⟩
      have := changes_after hq
      unfold advance at this
      split at this <;> dsimp only at this ⊢ <;> omega

theorem changes_col {α : Type} [DecidableEq α] {q : (Nat × Nat) × Option α} :
    ∀ {m : List (Char × Option α)} {last : Option α} {p : Nat × Nat}, q ∈ changes last p m →
    q.1.2 ≤ p.2 + m.length
  | (c, o) :: m, last, p, h => by
    rw [changes, List.mem_append] at h
    rw [List.length_cons]
    rcases h with h | h
    · split at h
      · cases h
      · simp only [List.mem_cons, List.not_mem_nil, or_false] at h
        subst h
        dsimp only; omega
    · have := changes_col h
      unfold advance at this
      split at this <;> dsimp only at this <;> omega

theorem changes_mem {α : Type} [DecidableEq α] {q : (Nat × Nat) × Option α} :
    ∀ {m : List (Char × Option α)} {last : Option α} {p : Nat × Nat}, q ∈ changes last p m → ∃ c, (c, q.2) ∈ m
  | (c, o) :: m, last, p, h => by
    rw [changes, List.mem_append] at h
    rcases h with h | h
    · split at h
      · cases h
      · simp only [List.mem_cons, List.not_mem_nil, or_false] at h
        subst h
        exact ⟨c, by simp⟩
    · obtain ⟨c', h'⟩ := changes_mem h
      exact ⟨c', by simp [h']⟩

theorem resolve_numbers {ss ns : List Int} {s : Seg} {p : Point} (h : s.resolve ss ns = some p) :
    p.line = s.line ∧ p.col = s.col.toNat ∧ ∀ o, p.origin = some o → ∃ si ol oc ni, s.orig = some (si, ol, oc, ni) ∧
      o.line = ol.toNat + 1 ∧ o.col = oc.toNat := by
  have nat : ∀ {i : Int} {n : Nat}, nat? i = some n → n = i.toNat := by
    intro i n h
    unfold nat? at h
    split at h
    · cases h
    · cases h; rfl
  unfold Seg.resolve at h
  split at h
  · cases h
  · rename_i hc _
    cases h
    exact ⟨rfl, nat hc, fun o ho => by cases ho⟩
  · rename_i c si ol oc ni hc ho
    split at h
    · rename_i h1 h2 h3
      split at h
      · cases h
        exact ⟨rfl, nat hc, fun o e => by cases e; exact ⟨_, _, _, _, ho, by rw [nat h2], nat h3⟩⟩
      · split at h
        · cases h
        · cases h
          exact ⟨rfl, nat hc, fun o e => by cases e; exact ⟨_, _, _, _, ho, by rw [nat h2], nat h3⟩⟩
    · cases h

theorem resolveAll_from {ss ns : List Int} : ∀ {gs : List Seg} {ps : List Point}, resolveAll ss ns gs = some ps →
    ∀ p ∈ ps, ∃ g ∈ gs, g.resolve ss ns = some p
  | [], ps, h, p, hp => by cases h; cases hp
  | g :: gs, ps, h, p, hp => by
    simp only [resolveAll] at h
    split at h
    · rename_i q qs h1 h2
      cases h
      rcases List.mem_cons.1 hp with rfl | hp
      · exact ⟨g, by simp, h1⟩
      · obtain ⟨g', h3, h4⟩ := resolveAll_from h2 p hp
        exact ⟨g', by simp [h3], h4⟩
    · cases h

theorem resolveAll_sorted {ss ns : List Int} : ∀ {gs : List Seg} {ps : List Point}, resolveAll ss ns gs = some ps →
    gs.Pairwise (fun a b => a.line < b.line ∨ a.line = b.line ∧ a.col.toNat < b.col.toNat) → ps.Pairwise Point.Lt
  | [], ps, h, _ => by cases h; exact List.Pairwise.nil
  | g :: gs, ps, h, hs => by
    simp only [resolveAll] at h
    split at h
    · rename_i q qs h1 h2
      cases h
      obtain ⟨h3, h4⟩ := List.pairwise_cons.1 hs
      refine List.pairwise_cons.2 ⟨fun p hp => ?_, resolveAll_sorted h2 h4⟩
      obtain ⟨g', hg, hp⟩ := resolveAll_from h2 p hp
      have := h3 g' hg
      obtain ⟨a1, a2, -⟩ := resolve_numbers h1
      obtain ⟨b1, b2, -⟩ := resolve_numbers hp
      rw [Point.Lt, a1, a2, b1, b2]
      exact this
    · cases h

theorem firsts_length {β : Type} [DecidableEq β] : ∀ (l s : List β), (firsts s l).length ≤ l.length
  | [], _ => Nat.le_refl _
  | b :: l, s => by
    rw [firsts]
    split
    · have := firsts_length l s; simp; omega
    · have := firsts_length l (b :: s); simp; omega

/-- The smallest map is well-formed, if the numbers fit. -/
theorem wellMade_of_exact {m : PlacedMarks} {ps : List Point}
    (h : points (idTable (filesOf m).length) (idTable (namesOf m).length) (encode (segsOf m)) = some ps) (hf : Sizable m) :
    WellMade (filesOf m) (namesOf m) (encode (segsOf m)) := by
  refine ⟨ps, h, ?_, ?_, ⟨?_, firsts_nodup _ _⟩, ?_, firsts_nodup _ _⟩
  · rw [points, C75_encode _ (segsOf_ordered m)] at h
    intro p hp
    obtain ⟨g, hg, e⟩ := resolveAll_from h p hp
    obtain ⟨q, hq, rfl⟩ := List.mem_map.1 hg
    obtain ⟨-, e2, e3⟩ := resolve_numbers e
    refine ⟨?_, fun o ho => ?_⟩
    · rw [e2]
      have := changes_col hq
      have := hf.1
      dsimp only at *; omega
    · obtain ⟨si, ol, oc, ni, h1, h2, h3⟩ := e3 o ho
      obtain ⟨c, hm⟩ := changes_mem hq
      obtain ⟨o', h4, h5⟩ := Option.map_eq_some_iff.1 h1
      rw [h4] at hm
      obtain ⟨k1, k2, -⟩ := hf.2 c o' hm
      simp only [Prod.mk.injEq] at h5
      obtain ⟨-, rfl, rfl, -⟩ := h5
      omega
  · rw [points, C75_encode _ (segsOf_ordered m)] at h
    refine resolveAll_sorted h ?_
    rw [segsOf, List.pairwise_map]
    exact (changes_sorted m none (1, 0)).imp fun h => by dsimp only; omega
  · have := firsts_length (m.filterMap fun p => p.2.map Place.file) []
    have h2 := List.length_filterMap_le (fun p : Char × Option Place => p.2.map Place.file) m
    have := hf.1
    rw [filesOf]; omega
  · have := firsts_length (m.filterMap fun p => p.2.bind Place.name) []
    have h2 := List.length_filterMap_le (fun p : Char × Option Place => p.2.bind Place.name) m
    have := hf.1
    rw [namesOf]; omega

/-! ## Rounds -/

/-- A new pair has contents, or none. -/
theorem World.emit_contents_reads {U : Pool} {w w1 : World} {j k : Nat} {module_ : Bool} {v : JFieldVal}
    (e : (JOp.sourceAndMap j true module_).run w = .ok (.pair k, w1)) (W : w1.Within U)
    (h : Reads w1 k .mappings v) : ∃ cv, Reads w1 k .contents cv := by
  have fresh : ∃ x, w1.maps[k]? = some (Emitted.new x true) := by
    simp only [JOp.run] at e
    unfold World.emit at e
    split at e
    · cases e
    split at e
    · cases e
    simp only [if_true, Except.bind_ok_iff] at e
    obtain ⟨⟨a, w3⟩, h1, h2⟩ := e
    dsimp only at h2
    split at h2
    · cases h2
      exact ⟨_, List.getElem?_concat_length⟩
    · cases h2
  obtain ⟨x, hx⟩ := fresh
  obtain ⟨w', h⟩ := h
  simp only [JOp.run, hx, Except.map_ok_iff, Emitted.get, Emitted.getMappings, Emitted.new] at h
  obtain ⟨⟨y, z⟩, ⟨⟨y', z'⟩, ⟨⟨y2, z2⟩, hd, -⟩, -⟩, -⟩ := h
  have hw := (W.maps _ (List.mem_of_getElem? hx)).getContents
  have key : ∃ p, (Emitted.new x true).getContents w1 = .ok p := by
    cases hg : (Emitted.new x true).getContents w1 with
    | ok p => exact ⟨p, rfl⟩
    | error z =>
      rw [hg] at hw
      exfalso
      simp only [Emitted.getContents, Emitted.new] at hg hd
      rw [hd] at hg
      simp only [Except.bind] at hg
      cases hr : w1.resolve y2.sourcesContent with
      | ok l => rw [hr] at hg; cases hg
      | error z' =>
        rw [hr] at hg; cases hg
        unfold World.resolve at hr
        split at hr
        · cases hr
        · cases hr; exact hw rfl
  obtain ⟨p, hp⟩ := key
  exact ⟨_, _, by simp only [JOp.run, hx, Emitted.get, hp, Except.map]; rfl⟩

theorem MadeFrom.read : ∀ {ops : List JOp} {w w1 w2 : World} {made : List JOp} {op : JOp} {a : JAnswer},
    MadeFrom w ops made → w.runFrom ops = .ok w1 → op.run w1 = .ok (a, w2) → Spec.JOp.makes op = false →
    MadeFrom w (ops ++ [op]) made
  | [], w, w1, w2, made, op, a, hm, r, h, hk => by
    cases r; cases hm
    show MadeFrom _ [op] []
    rw [MadeFrom]
    refine ⟨a, w2, h, ?_⟩
    rw [if_neg (by simp [hk])]
    rfl
  | op0 :: ops, w, w1, w2, made, op, a, hm, r, h, hk => by
    rw [MadeFrom] at hm
    obtain ⟨a0, w0, h0, hm⟩ := hm
    simp only [World.runFrom, h0, Except.bind] at r
    rw [List.cons_append, MadeFrom]
    refine ⟨a0, w0, h0, ?_⟩
    split at hm
    · rename_i hk0
      obtain ⟨op', rest, rfl, h1, h2⟩ := hm
      rw [if_pos hk0]
      exact ⟨op', rest, rfl, h1, MadeFrom.read h2 r h hk⟩
    · rename_i hk0
      rw [if_neg hk0]
      exact MadeFrom.read hm r h hk

/-- The pair shows the places, and a map to be given as it reads. -/
structure Shown (w : World) (k : Nat) (m : PlacedMarks) (ss cs ns : List JVal) (mp : List Char) : Prop where
  places : ShowsPlaces w k m
  spelt : SpeltMap w (.emitted k) (.plain ss cs ns mp)
  well : WellMade ss ns mp

theorem World.run_snoc {ops : List JOp} {w w1 : World} {op : JOp} {a : JAnswer} (r : World.run ops = .ok w)
    (e : op.run w = .ok (a, w1)) : World.run (ops ++ [op]) = .ok w1 := by
  have r : World.empty.runFrom ops = .ok w := r
  rw [World.run, runFrom_append, r]
  simp only [Except.bind, World.runFrom, e]

theorem namesFit_snoc {ops : List JOp} {op : JOp} (h : NamesFit ops)
    (ho : ∀ k l a, op ≠ .sourceAndMap k false l ∧ op ≠ .set k a) : NamesFit (ops ++ [op]) := by
  rcases h with h | h
  · exact .inl fun k l h' => by
      rcases List.mem_append.1 h' with h' | h'
      · exact h k l h'
      · exact absurd (List.mem_singleton.1 h').symm (by first | exact (ho _ _ (.source [])).1 | exact (ho _ true _).2)
  · exact .inr fun k l h' => by
      rcases List.mem_append.1 h' with h' | h'
      · exact h k l h'
      · exact absurd (List.mem_singleton.1 h').symm (by first | exact (ho _ _ (.source [])).1 | exact (ho _ true _).2)

theorem mem_snoc {α : Type} {P : α → Prop} {l : List α} {a : α} (h : ∀ x ∈ l, P x) (ha : P a) :
    ∀ x ∈ l ++ [a], P x := fun x hx => by
  rcases List.mem_append.1 hx with hx | hx
  · exact h x hx
  · rw [List.mem_singleton.1 hx]; exact ha

/-- The pair of an object, after the statement. -/
theorem Spec.Plainly.emit {ops made : List JOp} {w w1 : World} {j k : Nat} {module_ : Bool} {m : PlacedMarks}
    (P : Plainly ops made w) (hu : Unreplaced (jthings ops) false (.obj j))
    (hj : JPlaces (jthings ops) made (.obj j) m) (hf : Sizable m)
    (e : (JOp.sourceAndMap j true module_).run w = .ok (.pair k, w1)) :
    Plainly (ops ++ [.sourceAndMap j true module_]) made w1 ∧ ShowsExactly w1 k m ∧
      ∃ cs, Shown w1 k m (filesOf m) cs (namesOf m) (encode (segsOf m)) := by
  have Q : Plainly (ops ++ [.sourceAndMap j true module_]) made w1 :=
    ⟨World.run_snoc P.run e, mem_snoc P.proper trivial, mem_snoc P.few trivial, namesFit_snoc P.names (fun _ _ _ => ⟨fun h => (by cases h), fun h => (by cases h)⟩),
      mem_snoc P.simple trivial, MadeFrom.read P.spelt P.run e rfl, P.exact_⟩
  obtain ⟨m', h1, h2⟩ := C75_given_partial ops [] made w w1 w1 j k module_ P.run P.proper P.few P.names P.simple P.spelt
    P.exact_ hu e rfl (by simp) (by simp)
  cases (h1 m).1 hj
  have h3 := C66_exact_partial ops [] made w w1 w1 j k module_ m P.run P.proper P.few P.names P.simple P.spelt
    P.exact_ hu hj e rfl (by simp) (by simp)
  have W := World.run_within (ops ++ [.sourceAndMap j true module_])
  rw [Q.run] at W
  obtain ⟨cv, hc⟩ := World.emit_contents_reads e W h2.2.2.2
  refine ⟨Q, h2, Spec.JFieldVal.entries cv, h3, ⟨_, cv, .list (namesOf m), _, h2.2.1, hc, h2.2.2.2, h2.2.2.1, ?_, rfl⟩, ?_⟩
  · intro hn
    obtain ⟨p, hp, e⟩ := List.mem_filterMap.1 ((mem_firsts _ _).1 hn).1
    obtain ⟨o, ho, h⟩ := Option.map_eq_some_iff.1 e
    obtain ⟨c, o'⟩ := p
    cases ho
    exact (hf.2 c o hp).2.2 h
  · obtain ⟨-, l, ns, s, ps, g1, g2, g3, g4, -⟩ := h3
    cases reads_unique g1 h2.2.1
    cases reads_unique g2 h2.2.2.1
    cases reads_unique g3 h2.2.2.2
    exact wellMade_of_exact g4 hf

/-- A source map source made of a pair. -/
theorem Spec.Plainly.given {ops made : List JOp} {w w1 : World} {k : Nat} {m : PlacedMarks}
    {v n : List Char} {o : Option (List Char)} {ss cs ns : List JVal} {mp : List Char} {a : JAnswer}
    (P : Plainly ops made w) (S : Shown w k m ss cs ns mp) (hv : Reads w k .source (.text v))
    (e : (JOp.newSms v n (.emitted k) o none).run w = .ok (a, w1)) :
    ∃ made', Plainly (ops ++ [.newSms v n (.emitted k) o none]) made' w1 ∧
      Unreplaced (jthings (ops ++ [.newSms v n (.emitted k) o none])) false (.obj (jthings ops).length) ∧
      JPlaces (jthings (ops ++ [.newSms v n (.emitted k) o none])) made' (.obj (jthings ops).length) m := by
  cases reads_unique hv S.places.1
  have hspelt : SpeltOut w (JOp.newSms (m.map Prod.fst) n (.emitted k) o none)
      (.newSms (m.map Prod.fst) n (.plain ss cs ns mp) o none) := ⟨_, _, rfl, S.spelt, rfl⟩
  have hm' := MadeFrom.snoc P.spelt P.run e rfl hspelt
  obtain ⟨ps', hps, hrest⟩ := S.well
  have hplaces : m = placedBy (told ss ns ps') (1, 0) (m.map Prod.fst) := by
    obtain ⟨-, l, ns', s, ps, h2, h3, h4, h5, h6⟩ := S.places
    obtain ⟨ss', cv, nv, mp', r1, r2, r3, r4, r5, r6⟩ := S.spelt
    cases reads_unique h2 r1
    cases reads_unique h4 r3
    cases reads_unique h3 r4
    cases r6
    have : some ps = some ps' := h5.symm.trans hps
    have key := placedBy_shown (l := ss) (ns := ns') (ps := ps) m [] (by simpa using h6)
    rw [Option.some.inj this] at key
    exact key.symm
  have hlen : (jthings ops).length = made.length := (made_together P.spelt).len.symm
  have hlast : (jthings (ops ++ [.newSms (m.map Prod.fst) n (.emitted k) o none]))[(jthings ops).length]? =
      some (.leaf (m.map Prod.fst) (o.toList.filter (· ≠ []))) := by
    simp [jthings, jstep]
  have Q : Plainly (ops ++ [.newSms (m.map Prod.fst) n (.emitted k) o none])
      (made ++ [.newSms (m.map Prod.fst) n (.plain ss cs ns mp) o none]) w1 :=
    ⟨World.run_snoc P.run e, mem_snoc P.proper trivial, mem_snoc P.few trivial, namesFit_snoc P.names (fun _ _ _ => ⟨fun h => (by cases h), fun h => (by cases h)⟩),
      mem_snoc P.simple rfl, hm', mem_snoc P.exact_ ⟨⟨_, _, _, _, rfl, ps', hps, hrest⟩, fun i hi => by cases hi⟩⟩
  refine ⟨_, Q, .leaf hlast, ?_⟩
  rw [hplaces]
  exact .sms (o := o) (n := n) (cs := cs) (mp := mp) (by
    rw [hlen, List.getElem?_append_right (Nat.le_refl _)]; simp [← hplaces]) hps

/-- A round. -/
theorem Spec.Plainly.round {ops made : List JOp} {w w1 w2 : World} {k k' : Nat} {module_ : Bool} {m : PlacedMarks}
    {v n : List Char} {o : Option (List Char)} {ss cs ns : List JVal} {mp : List Char} {a : JAnswer}
    (P : Plainly ops made w) (S : Shown w k m ss cs ns mp) (hf : Sizable m) (hv : Reads w k .source (.text v))
    (e : (JOp.newSms v n (.emitted k) o none).run w = .ok (a, w1))
    (e1 : (JOp.sourceAndMap (jthings ops).length true module_).run w1 = .ok (.pair k', w2)) :
    ∃ made', Plainly (ops ++ [.newSms v n (.emitted k) o none, .sourceAndMap (jthings ops).length true module_]) made' w2 ∧
      ShowsExactly w2 k' m ∧ ∃ cs', Shown w2 k' m (filesOf m) cs' (namesOf m) (encode (segsOf m)) := by
  obtain ⟨made', Q, hu, hj⟩ := P.given S hv e
  have := Q.emit hu hj hf e1
  rw [List.append_assoc] at this
  exact ⟨_, this⟩

theorem reads_lasts {w w' : World} {k : Nat} {more : List JOp} (e : w.runFrom more = .ok w')
    (hg : ∀ op ∈ more, ¬ op.gives k) (hset : ∀ a, .set k a ∉ more) {f : JField} {v : JFieldVal} (h : Reads w k f v) :
    Reads w' k f v := by
  obtain ⟨w1, h⟩ := h
  exact C48_when_partial more w w1 w' k f v h (fun a ha => absurd ha (hset a)) hg e

theorem Shown.lasts {w w' : World} {k : Nat} {more : List JOp} {m : PlacedMarks} {ss cs ns : List JVal} {mp : List Char}
    (e : w.runFrom more = .ok w') (hg : ∀ op ∈ more, ¬ op.gives k) (hset : ∀ a, .set k a ∉ more)
    (h : Shown w k m ss cs ns mp) : Shown w' k m ss cs ns mp := by
  have L := fun {f v} => reads_lasts e hg hset (f := f) (v := v)
  obtain ⟨⟨h1, l, ns', s, ps, h2, h3, h4, h5⟩, ⟨ss', cv, nv, mp', r1, r2, r3, r4, r5⟩, h⟩ := h
  exact ⟨⟨L h1, l, ns', s, ps, L h2, L h3, L h4, h5⟩, ⟨ss', cv, nv, mp', L r1, L r2, L r3, L r4, r5⟩, h⟩

theorem Spec.Plainly.again {ops made : List JOp} {w : World} {k : Nat} {m : PlacedMarks} {cs : List JVal}
    (P : Plainly ops made w) (hs : ShowsExactly w k m)
    (S : Shown w k m (filesOf m) cs (namesOf m) (encode (segsOf m))) (hf : Sizable m) {ops' : List JOp} {k' : Nat}
    (h : Again ops k ops' k') : ∃ made' w', Plainly ops' made' w' ∧ ShowsExactly w' k' m ∧
      ∃ cs', Shown w' k' m (filesOf m) cs' (namesOf m) (encode (segsOf m)) := by
  induction h with
  | start => exact ⟨_, _, P, hs, _, S⟩
  | more _ r e Q hg hset ih =>
    obtain ⟨made', w', P', ⟨a1, a2, a3, a4⟩, cs', S'⟩ := ih
    have := r.symm.trans P'.run
    cases this
    exact ⟨_, _, Q, ⟨reads_lasts e hg hset a1, reads_lasts e hg hset a2, reads_lasts e hg hset a3,
      reads_lasts e hg hset a4⟩, _, S'.lasts e hg hset⟩
  | round _ r hv e e1 ih =>
    obtain ⟨made', w', P', -, cs', S'⟩ := ih
    have := r.symm.trans P'.run
    cases this
    obtain ⟨made'', h1, h2⟩ := P'.round S' hf hv e e1
    exact ⟨_, _, h1, h2⟩

/-! ## C78 -/

/-- The properties of two pairs read the same, contents aside. -/
def Spec.ReadSame (w : World) (k : Nat) (w' : World) (k' : Nat) : Prop :=
  ∀ f, f ≠ .contents → ∃ v, Reads w k f v ∧ Reads w' k' f v

theorem readSame_of_exactly {w w' : World} {k k' : Nat} {m : PlacedMarks} (h : ShowsExactly w k m)
    (h' : ShowsExactly w' k' m) : ReadSame w k w' k' := by
  intro f hf
  cases f with
  | source => exact ⟨_, h.1, h'.1⟩
  | sources => exact ⟨_, h.2.1, h'.2.1⟩
  | contents => exact absurd rfl hf
  | mappings => exact ⟨_, h.2.2.2, h'.2.2.2⟩
  | names => exact ⟨_, h.2.2.1, h'.2.2.1⟩

/-- C78 for the pair of an object without `ReplaceSource` and empty strings. -/
theorem C78_partial (ops ops' made : List JOp) (w w1 w' : World) (j k k' : Nat) (module_ : Bool) (m : PlacedMarks)
    (P : Plainly ops made w) (hu : Unreplaced (jthings ops) false (.obj j))
    (hj : JPlaces (jthings ops) made (.obj j) m) (hf : Sizable m)
    (e : (JOp.sourceAndMap j true module_).run w = .ok (.pair k, w1))
    (h : Again (ops ++ [.sourceAndMap j true module_]) k ops' k') (r : World.run ops' = .ok w') :
    ReadSame w1 k w' k' := by
  obtain ⟨Q, h1, cs, S⟩ := P.emit hu hj hf e
  obtain ⟨made', w2, P', h2, -⟩ := Q.again h1 S hf h
  have := r.symm.trans P'.run
  cases this
  exact readSame_of_exactly h1 h2

/-- C78 for any well-formed pair that attributes its characters: the first round may change the spelling of the
map, further ones do not. -/
theorem C78_settles_partial (ops ops' made : List JOp) (w w1 w2 w' : World) (k k1 k' : Nat) (module_ : Bool)
    (m : PlacedMarks) (v n : List Char) (o : Option (List Char)) (ss cs ns : List JVal) (mp : List Char) (a : JAnswer)
    (P : Plainly ops made w) (hs : ShowsPlaces w k m) (hx : SpeltMap w (.emitted k) (.plain ss cs ns mp))
    (hw : WellMade ss ns mp) (hf : Sizable m) (hv : Reads w k .source (.text v))
    (e : (JOp.newSms v n (.emitted k) o none).run w = .ok (a, w1))
    (e1 : (JOp.sourceAndMap (jthings ops).length true module_).run w1 = .ok (.pair k1, w2))
    (h : Again (ops ++ [.newSms v n (.emitted k) o none, .sourceAndMap (jthings ops).length true module_]) k1 ops' k')
    (r : World.run ops' = .ok w') : ShowsExactly w2 k1 m ∧ ShowsExactly w' k' m ∧ ReadSame w2 k1 w' k' := by
  obtain ⟨made1, Q, h1, cs1, S⟩ := P.round ⟨hs, hx, hw⟩ hf hv e e1
  obtain ⟨made', w3, P', h2, -⟩ := Q.again h1 S hf h
  have := r.symm.trans P'.run
  cases this
  exact ⟨h1, h2, readSame_of_exactly h1 h2⟩

/-! Non-trivial case: two rounds from the last pair of the program of C66. -/

theorem c78_plainly {w : World} (r : World.run c66Program = .ok w) : Plainly c66Program c66Made w :=
  ⟨r, c66_meets.1, c66_meets.2.1, c66_meets.2.2.1, c66_meets.2.2.2.1, c66_made, c66_meets.2.2.2.2⟩

theorem c78_sizable : Sizable c66Last := by
  refine ⟨by decide +kernel, fun c o h => ?_⟩
  have : ∀ p ∈ c66Last, ∀ o, p.2 = some o → o.line ≤ 4294967296 ∧ o.col ≤ 4294967295 ∧ o.file ≠ none := by
    decide +kernel
  exact this _ h o rfl

/-- The number of the pair of a round, by execution. -/
def roundNow (ops : List JOp) (k : Nat) (v n : List Char) : Option Nat :=
  match World.run ops with
  | .error _ => none
  | .ok w =>
    if readNow w k .source = some (.text v) then
      match (JOp.newSms v n (.emitted k) none none).run w with
      | .error _ => none
      | .ok (_, w1) =>
        match (JOp.sourceAndMap (jthings ops).length true true).run w1 with
        | .ok (.pair k', _) => some k'
        | _ => none
    else none

theorem roundNow_again {ops ops' : List JOp} {k k' k'' : Nat} {v n : List Char} (h : Again ops k ops' k')
    (e : roundNow ops' k' v n = some k'') : Again ops k (ops' ++ [.newSms v n (.emitted k') none none,
      .sourceAndMap (jthings ops').length true true]) k'' := by
  unfold roundNow at e
  split at e
  · cases e
  · rename_i w r
    split at e
    · rename_i hv
      split at e
      · cases e
      · rename_i a w1 e1
        split at e
        · rename_i k2 w2 e2
          cases e
          exact .round h r (readNow_reads hv) e1 e2
        · cases e
    · cases e

/-- The text. -/
def c78Text : List Char := "> x\n> a;b {\n>   c }\n> pq\nrs\nt".toList

/-- The program, with two rounds. -/
def c78Program : List JOp := c66Program ++ [.sourceAndMap 6 true true] ++
  [.newSms c78Text "r.js".toList (.emitted 2) none none, .sourceAndMap 7 true true] ++
  [.newSms c78Text "s.js".toList (.emitted 3) none none, .sourceAndMap 8 true true]

theorem c78_again : Again (c66Program ++ [.sourceAndMap 6 true true]) 2 c78Program 4 :=
  roundNow_again (roundNow_again .start (by decide +kernel)) (by decide +kernel)

/-- The program runs, so its pairs read the same. -/
theorem c78_same : ∃ w w1 w', World.run c66Program = .ok w ∧
    (JOp.sourceAndMap 6 true true).run w = .ok (.pair 2, w1) ∧ World.run c78Program = .ok w' ∧ ReadSame w1 2 w' 4 := by
  have h1 : (World.run c66Program).toOption.map (fun w => ((JOp.sourceAndMap 6 true true).run w).toOption.map Prod.fst) =
      some (some (.pair 2)) := by decide +kernel
  have h2 : (World.run c78Program).toOption.isSome = true := by decide +kernel
  cases r : World.run c66Program with
  | error z => rw [r] at h1; cases h1
  | ok w =>
    rw [r] at h1
    replace h1 : some (((JOp.sourceAndMap 6 true true).run w).toOption.map Prod.fst) = some (some (.pair 2)) := h1
    cases e : (JOp.sourceAndMap 6 true true).run w with
    | error z => rw [e] at h1; cases h1
    | ok p =>
      obtain ⟨a, w1⟩ := p
      rw [e] at h1
      replace h1 : some (some a) = some (some (JAnswer.pair 2)) := h1
      cases h1
      cases r' : World.run c78Program with
      | error z => rw [r'] at h2; cases h2
      | ok w' => exact ⟨w, w1, w', rfl, e, rfl, C78_partial _ _ _ w w1 w' 6 2 4 true c66Last (c78_plainly r) c66_unreplaced
          c66_last c78_sizable e c78_again r'⟩

example : ((World.run c78Program).toOption.map fun w =>
    [JField.source, .sources, .names, .mappings].map fun f => ((JOp.get 4 f).run w).toOption.map Prod.fst) =
    some [some (.field (.text c78Text)),
      some (.field (.list [some "a.js".toList, some "g.js".toList, some "h.js".toList])),
      some (.field (.list [some "n".toList])),
      some (.field (.text ";AAAA,IAAE;AACF;ACDAA,GCEAA;AFFE;AACF".toList))] := by decide +kernel

/-! Non-trivial case for maps that are not the smallest: one was assigned that lists a file nothing comes from and
has a segment that changes nothing. The first round leaves both out. -/

/-- The program. -/
def c78Assigned : List JOp :=
  [.newOriginal "ab".toList "a.js".toList, .sourceAndMap 0 true true,
   .set 0 (.sources [some "z.js".toList, some "a.js".toList]), .set 0 (.mappings "ACAA,CAAA".toList)]

/-- What its pair says. -/
def c78Marks : PlacedMarks := c63From "ab" "a.js" 1 0 none

theorem c78_assigned : ∃ w, World.run c78Assigned = .ok w ∧ Plainly c78Assigned [.newOriginal "ab".toList "a.js".toList] w ∧
    ShowsPlaces w 0 c78Marks ∧ WellMade [some "z.js".toList, some "a.js".toList] [] "ACAA,CAAA".toList ∧
    SpeltMap w (.emitted 0) (.plain [some "z.js".toList, some "a.js".toList] [some "ab".toList] [] "ACAA,CAAA".toList) := by
  have h : (World.run c78Assigned).toOption.map (fun w => [JField.source, .sources, .names, .mappings, .contents].map
      fun f => readNow w 0 f) = some [some (.text "ab".toList), some (.list [some "z.js".toList, some "a.js".toList]),
        some (.list []), some (.text "ACAA,CAAA".toList), some (.list [some "ab".toList])] := by decide +kernel
  cases r : World.run c78Assigned with
  | error z => rw [r] at h; cases h
  | ok w =>
    rw [r] at h
    simp only [Except.toOption, Option.map_some, List.map_cons, List.map_nil, Option.some.injEq, List.cons.injEq,
      and_true] at h
    obtain ⟨h1, h2, h3, h4, h5⟩ := h
    have k1 := readNow_reads h1
    have k2 := readNow_reads h2
    have k3 := readNow_reads h3
    have k4 := readNow_reads h4
    have k5 := readNow_reads h5
    refine ⟨w, rfl, ⟨r, by simp [c78Assigned, JOp.Proper], ?_, .inl fun k l h => by simp [c78Assigned] at h,
      by simp [c78Assigned, Spec.JOp.Simple], made_of_check (by decide +kernel), by simp [Spec.JOp.Exact]⟩, ?_, ?_, ?_⟩
    · simp only [c78Assigned, List.forall_mem_cons, Spec.JOp.FewLines]
      unfold Spec.FewLines
      exact ⟨by decide, trivial, trivial, trivial, by simp⟩
    · refine ⟨k1, _, _, _, [⟨1, 0, some ⟨1, 1, 0, none⟩⟩, ⟨1, 1, some ⟨1, 1, 0, none⟩⟩], k2, k3, k4, by decide +kernel, ?_⟩
      intro i c o h
      match i with
      | 0 => cases h; rfl
      | 1 => cases h; rfl
      | i + 2 => simp [c78Marks, c63From] at h
    · exact ⟨[⟨1, 0, some ⟨1, 1, 0, none⟩⟩, ⟨1, 1, some ⟨1, 1, 0, none⟩⟩], by decide +kernel, by simp [Point.Small],
        by simp [Point.Lt], by decide +kernel⟩
    · exact ⟨_, _, _, _, k2, k5, k4, k3, by decide, rfl⟩

example : ((World.run (c78Assigned ++ [.newSms "ab".toList "b.js".toList (.emitted 0) none none,
    .sourceAndMap 1 true true])).toOption.map fun w =>
    [JField.source, .sources, .names, .mappings].map fun f => ((JOp.get 1 f).run w).toOption.map Prod.fst) =
    some [some (.field (.text "ab".toList)), some (.field (.list [some "a.js".toList])), some (.field (.list [])),
      some (.field (.text "AAAA".toList))] := by decide +kernel

end WS
