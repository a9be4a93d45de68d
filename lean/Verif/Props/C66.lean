import Verif.Proofs.JsGiven
/-!
# C66: emitted maps given back

Claim: the map of a pair may be given to a new `SourceMapSource`, as its map or as its inner map, moved or
copied, read or assigned to before or not. What C62, C63 and C65 say of programs then holds with the map as
its properties read when it is given. In particular a `SourceMapSource` made of the text and the map of a
pair has, in its own map, every character where the pair had it.
-/

namespace WS
open Spec

theorem exact_strict {op : JOp} (h : Spec.JOp.Exact op) : Spec.JOp.Strict op := by
  cases op <;> try trivial
  rename_i v n m o i
  cases m with
  | emitted k => trivial
  | plain ss cs ns mp =>
    obtain ⟨⟨_, _, _, _, he, ps, h1, -, h2, -⟩, -⟩ := h
    cases he
    exact ⟨ps, h1, h2⟩

/-- C66 for columns: `made` are the statements with the maps as they read (`Spec.MadeFrom`), which have to be
well-formed. Of the rest, C63_partial says what is required; besides, an emitted map is not given together
with an inner map, no file is without name in it, and names are not assigned to maps of programs that have
line maps too (they are dropped, `C55_not_general`). -/
theorem C66_partial (ops more made : List JOp) (w w1 w2 : World) (j k : Nat) (module_ : Bool)
    (r : World.run ops = .ok w) (hp : ∀ op ∈ ops, op.Proper) (hf : ∀ op ∈ ops, Spec.JOp.FewLines op)
    (hn : NamesFit ops) (hsim : ∀ op ∈ ops, Spec.JOp.Simple op) (hm : MadeFrom World.empty ops made)
    (hr : ∀ op ∈ made, Spec.JOp.Exact op) (hu : Unreplaced (jthings ops) true (.obj j))
    (e : (JOp.sourceAndMap j true module_).run w = .ok (.pair k, w1)) (e2 : w1.runFrom more = .ok w2)
    (hg : ∀ op ∈ more, ¬ op.gives k) (hset : ∀ a, .set k a ∉ more) :
    ∃ m, JPlaces (jthings ops) made (.obj j) m ∧ ShowsPlaces w2 k m := by
  obtain ⟨A, I⟩ := World.run_inv hp r
  have W := World.run_within ops
  rw [r] at W
  have W : w.Within (supplied ops) := W
  obtain ⟨L, hst⟩ := World.run_given hp hf hn hsim hm (fun op h => exact_strict (hr op h)) r
  exact World.emit_places I L W (World.run_lined hf r) hst hr (made_makes hm) hu e (.of_run e2 hg hset)

/-- C66 for objects without empty strings put together: the statements say exactly one thing (`m`). -/
theorem C66_exact_partial (ops more made : List JOp) (w w1 w2 : World) (j k : Nat) (module_ : Bool)
    (m : PlacedMarks)
    (r : World.run ops = .ok w) (hp : ∀ op ∈ ops, op.Proper) (hf : ∀ op ∈ ops, Spec.JOp.FewLines op)
    (hn : NamesFit ops) (hsim : ∀ op ∈ ops, Spec.JOp.Simple op) (hm : MadeFrom World.empty ops made)
    (hr : ∀ op ∈ made, Spec.JOp.Exact op) (hu : Unreplaced (jthings ops) false (.obj j))
    (hp' : JPlaces (jthings ops) made (.obj j) m)
    (e : (JOp.sourceAndMap j true module_).run w = .ok (.pair k, w1)) (e2 : w1.runFrom more = .ok w2)
    (hg : ∀ op ∈ more, ¬ op.gives k) (hset : ∀ a, .set k a ∉ more) : ShowsPlaces w2 k m := by
  obtain ⟨m', h1, h2⟩ := C66_partial ops more made w w1 w2 j k module_ r hp hf hn hsim hm hr hu.mono e e2 hg hset
  rw [JPlaces.unique (made_together hm) hp' hu h1] at h2
  exact h2

/-- C66 for columns and edited code, as C65. -/
theorem C66_edited_partial (ops more made : List JOp) (w w1 w2 : World) (j k : Nat) (module_ : Bool)
    (r : World.run ops = .ok w) (hp : ∀ op ∈ ops, op.Proper) (hf : ∀ op ∈ ops, Spec.JOp.FewLines op)
    (hn : NamesFit ops) (hsim : ∀ op ∈ ops, Spec.JOp.Simple op) (hm : MadeFrom World.empty ops made)
    (hr : ∀ op ∈ made, Spec.JOp.Exact op) (hah : ∀ op ∈ ops, Spec.JOp.Ahead op)
    (ho : Orderly (jthings ops) made (mentions made) (.obj j))
    (e : (JOp.sourceAndMap j true module_).run w = .ok (.pair k, w1)) (e2 : w1.runFrom more = .ok w2)
    (hg : ∀ op ∈ more, ¬ op.gives k) (hset : ∀ a, .set k a ∉ more) :
    ∃ m, JCarries (jthings ops) made (.obj j) m ∧ KeepsPlaces w2 k m := by
  obtain ⟨A, I⟩ := World.run_inv hp r
  have W := World.run_within ops
  rw [r] at W
  have W : w.Within (supplied ops) := W
  obtain ⟨L, hst⟩ := World.run_given hp hf hn hsim hm (fun op h => exact_strict (hr op h)) r
  exact World.emit_carries I L W (World.run_lined hf r) hst (World.run_numbered_given hf hn hm r) (made_together hm)
    (allAhead ops (fun j c rs h => by simp at h) hah) hr (made_makes hm) ho e (.of_run e2 hg hset)

/-- C66 for lines, as C62. -/
theorem C66_lines_partial (ops more made : List JOp) (w w1 w2 : World) (j k : Nat) (module_ : Bool)
    (r : World.run ops = .ok w) (hp : ∀ op ∈ ops, op.Proper) (hf : ∀ op ∈ ops, Spec.JOp.FewLines op)
    (hn : NamesFit ops) (hsim : ∀ op ∈ ops, Spec.JOp.Simple op) (hm : MadeFrom World.empty ops made)
    (hst : ∀ op ∈ made, Spec.JOp.Strict op) (hr : ∀ op ∈ made, Spec.JOp.Readable module_ op)
    (e : (JOp.sourceAndMap j false module_).run w = .ok (.pair k, w1)) (e2 : w1.runFrom more = .ok w2)
    (hg : ∀ op ∈ more, ¬ op.gives k) (hset : ∀ a, .set k a ∉ more) :
    ∃ m, JLines (jthings ops) made module_ (.obj j) m ∧
      Reads w2 k .source (.text (m.map Prod.fst)) ∧
      ∃ l s ps, Reads w2 k .sources (.list l) ∧ Reads w2 k .mappings (.text s) ∧
        points (idTable l.length) [] s = some ps ∧ AttributesNamed l ps (1, 0) (seen none m) := by
  obtain ⟨A, I⟩ := World.run_inv hp r
  obtain ⟨L, hst⟩ := World.run_given hp hf hn hsim hm hst r
  exact World.emit_lines I L hst hr (made_makes hm) e (.of_run e2 hg hset)

/-! ## A pair as a source -/

theorem MadeFrom.snoc : ∀ {ops : List JOp} {w w1 w2 : World} {made : List JOp} {op op' : JOp} {a : JAnswer},
    MadeFrom w ops made → w.runFrom ops = .ok w1 → op.run w1 = .ok (a, w2) → Spec.JOp.makes op = true →
    SpeltOut w1 op op' → MadeFrom w (ops ++ [op]) (made ++ [op'])
  | [], w, w1, w2, made, op, op', a, hm, r, h, hk, hs => by
    cases r; cases hm
    show MadeFrom _ [op] [op']
    rw [MadeFrom]
    exact ⟨a, w2, h, by rw [if_pos hk]; exact ⟨op', [], rfl, hs, rfl⟩⟩
  | o :: ops, w, w1, w2, made, op, op', a, hm, r, h, hk, hs => by
    rw [MadeFrom] at hm
    obtain ⟨b, w3, h1, hm⟩ := hm
    simp only [World.runFrom, Except.bind_ok_iff] at r
    obtain ⟨⟨b', w3'⟩, h1', r⟩ := r
    rw [h1] at h1'; cases h1'
    show MadeFrom _ (o :: (ops ++ [op])) _
    rw [MadeFrom]
    refine ⟨b, w3, h1, ?_⟩
    split at hm
    · rename_i hmk
      obtain ⟨o', rest, rfl, h2, h3⟩ := hm
      rw [if_pos hmk]
      exact ⟨o', rest ++ [op'], rfl, h2, MadeFrom.snoc h3 r h hk hs⟩
    · rename_i hmk
      rw [if_neg hmk]
      exact MadeFrom.snoc hm r h hk hs

/-- What is said by a map that shows it. -/
theorem placedBy_shown {l ns : List JVal} {ps : List Point} : ∀ (m pre : PlacedMarks),
    (∀ i c o, m[i]? = some (c, o) →
      (lookup ps (posAfter ((pre ++ m.take i).map Prod.fst)).1 (posAfter ((pre ++ m.take i).map Prod.fst)).2).map
        (fun x => (l[x.source.toNat]?, x.line, x.col, x.name.map fun n => ns[n.toNat]?)) =
      o.map fun p => (some p.file, p.line, p.col, p.name.map some)) →
    placedBy (told l ns ps) (posAfter (pre.map Prod.fst)) (m.map Prod.fst) = m
  | [], pre, h => rfl
  | (c, o) :: m, pre, h => by
    have h0 := h 0 c o rfl
    simp only [List.take_zero, List.append_nil] at h0
    have e : told l ns ps (posAfter (pre.map Prod.fst)).1 (posAfter (pre.map Prod.fst)).2 = o := by
      rw [told]
      generalize lookup ps (posAfter (pre.map Prod.fst)).1 (posAfter (pre.map Prod.fst)).2 = q at h0
      cases q with
      | none => cases o with
        | none => rfl
        | some p => cases h0
      | some x => cases o with
        | none => cases h0
        | some p =>
          obtain ⟨f, a, b, n⟩ := p
          simp only [Option.map_some, Option.some.injEq, Prod.mk.injEq] at h0 ⊢
          obtain ⟨h1, h2, h3, h4⟩ := h0
          rw [h1, h2, h3]
          congr 1
          cases hx : x.name with
          | none => rw [hx] at h4; cases n <;> first | rfl | cases h4
          | some y =>
            rw [hx] at h4
            cases n with
            | none => cases h4
            | some z =>
              simp only [Option.map_some, Option.some.injEq] at h4 ⊢
              rw [h4]; rfl
    have ih := placedBy_shown m (pre ++ [(c, o)]) fun i c' o' hi => by
      have := h (i + 1) c' o' (by simpa using hi)
      simpa using this
    have hp : posAfter ((pre ++ [(c, o)]).map Prod.fst) = advance (posAfter (pre.map Prod.fst)) c := by
      simp [posAfter, posFrom]
    rw [hp] at ih
    simp only [List.map_cons, placedBy, e, ih]

/-- A source map source made of the text and the map of a pair shows what the pair shows. -/
theorem C66_again_partial (ops more made : List JOp) (w w1 w2 w3 : World) (k k' : Nat) (module_ : Bool)
    (n : List Char) (o : Option (List Char)) (m : PlacedMarks) (ss cs ns : List JVal) (mp : List Char) (a : JAnswer)
    (r : World.run ops = .ok w) (hp : ∀ op ∈ ops, op.Proper) (hf : ∀ op ∈ ops, Spec.JOp.FewLines op)
    (hn : NamesFit ops) (hsim : ∀ op ∈ ops, Spec.JOp.Simple op) (hm : MadeFrom World.empty ops made)
    (hr : ∀ op ∈ made, Spec.JOp.Exact op) (hs : ShowsPlaces w k m)
    (hx : SpeltMap w (.emitted k) (.plain ss cs ns mp)) (hw : WellMade ss ns mp)
    (e : (JOp.newSms (m.map Prod.fst) n (.emitted k) o none).run w = .ok (a, w1))
    (e1 : (JOp.sourceAndMap (jthings ops).length true module_).run w1 = .ok (.pair k', w2))
    (e2 : w2.runFrom more = .ok w3)
    (hg : ∀ op ∈ more, ¬ op.gives k') (hset : ∀ a, .set k' a ∉ more) : ShowsPlaces w3 k' m := by
  have hspelt : SpeltOut w (JOp.newSms (m.map Prod.fst) n (.emitted k) o none)
      (.newSms (m.map Prod.fst) n (.plain ss cs ns mp) o none) := ⟨_, _, rfl, hx, rfl⟩
  have hm' := MadeFrom.snoc hm r e rfl hspelt
  have r' : World.run (ops ++ [.newSms (m.map Prod.fst) n (.emitted k) o none]) = .ok w1 := by
    have r : World.empty.runFrom ops = .ok w := r
    rw [World.run, runFrom_append, r]
    simp only [Except.bind, World.runFrom, e]
  obtain ⟨ps', hps, hrest⟩ := hw
  have hplaces : m = placedBy (told ss ns ps') (1, 0) (m.map Prod.fst) := by
    obtain ⟨-, l, ns', s, ps, h2, h3, h4, h5, h6⟩ := hs
    obtain ⟨ss', cv, nv, mp', r1, r2, r3, r4, r5, r6⟩ := hx
    cases reads_unique h2 r1
    cases reads_unique h4 r3
    cases reads_unique h3 r4
    cases r6
    have : some ps = some ps' := h5.symm.trans hps
    have key := placedBy_shown (l := ss) (ns := ns') (ps := ps) m [] (by simpa using h6)
    rw [Option.some.inj this] at key
    exact key.symm
  have T := made_together hm
  have hlen : (jthings ops).length = made.length := T.len.symm
  have hlast : (jthings (ops ++ [.newSms (m.map Prod.fst) n (.emitted k) o none]))[(jthings ops).length]? =
      some (.leaf (m.map Prod.fst) (o.toList.filter (· ≠ []))) := by
    simp [jthings, jstep]
  refine C66_exact_partial (ops ++ [.newSms (m.map Prod.fst) n (.emitted k) o none]) more _ w1 w2 w3 _ k' module_ m r'
    ?_ ?_ ?_ ?_ hm' ?_ (.leaf hlast) ?_ e1 e2 hg hset
  · intro op h
    rcases List.mem_append.1 h with h | h
    · exact hp op h
    · rw [List.mem_singleton.1 h]; trivial
  · intro op h
    rcases List.mem_append.1 h with h | h
    · exact hf op h
    · rw [List.mem_singleton.1 h]; trivial
  · rcases hn with h | h
    · exact .inl fun k l h' => by
        rcases List.mem_append.1 h' with h' | h'
        · exact h k l h'
        · cases List.mem_singleton.1 h'
    · exact .inr fun k l h' => by
        rcases List.mem_append.1 h' with h' | h'
        · exact h k l h'
        · cases List.mem_singleton.1 h'
  · intro op h
    rcases List.mem_append.1 h with h | h
    · exact hsim op h
    · rw [List.mem_singleton.1 h]; rfl
  · intro op h
    rcases List.mem_append.1 h with h | h
    · exact hr op h
    · rw [List.mem_singleton.1 h]
      exact ⟨⟨_, _, _, _, rfl, ps', hps, hrest⟩, fun i hi => by cases hi⟩
  · rw [hplaces]
    exact .sms (o := o) (n := n) (cs := cs) (mp := mp) (by
      rw [hlen, List.getElem?_append_right (Nat.le_refl _)]; simp [← hplaces]) hps

/-! Non-trivial case. The maps are spelt out by execution. -/

/-- How a property reads. -/
def readNow (w : World) (k : Nat) (f : JField) : Option JFieldVal :=
  match (JOp.get k f).run w with
  | .ok (.field v, _) => some v
  | _ => none

theorem readNow_reads {w : World} {k : Nat} {f : JField} {v : JFieldVal} (h : readNow w k f = some v) :
    Reads w k f v := by
  unfold readNow at h
  split at h
  · rename_i w' e; cases h; exact ⟨_, e⟩
  · cases h

/-- The map as it reads. -/
def spellMap (w : World) : MapArg → Option MapArg
  | .plain ss cs ns mp => some (.plain ss cs ns mp)
  | .emitted k =>
    match readNow w k .sources, readNow w k .contents, readNow w k .mappings, readNow w k .names with
    | some (.list ss), some cv, some (.text mp), some nv =>
      if none ∈ ss then none else some (.plain ss (Spec.JFieldVal.entries cv) (Spec.JFieldVal.entries nv) mp)
    | _, _, _, _ => none

theorem spellMap_spelt {w : World} {a b : MapArg} (h : spellMap w a = some b) : SpeltMap w a b := by
  cases a with
  | plain ss cs ns mp => cases h; rfl
  | emitted k =>
    simp only [spellMap] at h
    split at h
    · rename_i ss cv mp nv h1 h2 h3 h4
      split at h
      · cases h
      · rename_i hn
        cases h
        exact ⟨ss, cv, nv, mp, readNow_reads h1, readNow_reads h2, readNow_reads h3, readNow_reads h4, hn, rfl⟩
    · cases h

/-- The statement with its maps as they read. -/
def spellOut (w : World) : JOp → Option JOp
  | .newSms v n m o none => (spellMap w m).map fun m => .newSms v n m o none
  | .newSms v n m o (some i) => (spellMap w m).bind fun m => (spellMap w i).map fun i => .newSms v n m o (some i)
  | op => some op

theorem spellOut_spelt {w : World} {op op' : JOp} (h : spellOut w op = some op') : SpeltOut w op op' := by
  cases op
  case newSms v n m o i =>
    cases i with
    | none =>
      simp only [spellOut, Option.map_eq_some_iff] at h
      obtain ⟨m', h1, rfl⟩ := h
      exact ⟨m', none, rfl, spellMap_spelt h1, rfl⟩
    | some i =>
      simp only [spellOut, Option.bind_eq_some_iff, Option.map_eq_some_iff] at h
      obtain ⟨m', h1, i', h2, rfl⟩ := h
      exact ⟨m', some i', rfl, spellMap_spelt h1, i', rfl, spellMap_spelt h2⟩
  all_goals exact (Option.some.inj h).symm

/-- The statements that make objects, with the maps as they read. -/
def spellAll : World → List JOp → Option (List JOp)
  | _, [] => some []
  | w, op :: ops =>
    match op.run w with
    | .error _ => none
    | .ok (_, w') =>
      if Spec.JOp.makes op then (spellOut w op).bind fun op' => (spellAll w' ops).map fun r => op' :: r
      else spellAll w' ops

theorem spellAll_made : ∀ {ops : List JOp} {w : World} {made : List JOp}, spellAll w ops = some made →
    MadeFrom w ops made
  | [], w, made, h => by cases h; rfl
  | op :: ops, w, made, h => by
    rw [spellAll] at h
    rw [MadeFrom]
    split at h
    · cases h
    · rename_i a w' he
      refine ⟨a, w', he, ?_⟩
      split at h
      · rename_i hk
        rw [if_pos hk]
        simp only [Option.bind_eq_some_iff, Option.map_eq_some_iff] at h
        obtain ⟨op', h1, r, h2, rfl⟩ := h
        exact ⟨op', r, rfl, spellOut_spelt h1, spellAll_made h2⟩
      · rename_i hk
        rw [if_neg hk]
        exact spellAll_made h

/-- Whether the maps are the same. -/
def sameMap : MapArg → MapArg → Bool
  | .plain a b c d, .plain a' b' c' d' => a == a' && b == b' && c == c' && d == d'
  | .emitted k, .emitted k' => k == k'
  | _, _ => false

theorem sameMap_eq {a b : MapArg} (h : sameMap a b = true) : a = b := by
  cases a <;> cases b <;> simp_all [sameMap]

/-- Whether the statements are the same. -/
def sameOp : JOp → JOp → Bool
  | .newSms v n m o none, .newSms v' n' m' o' none => v == v' && n == n' && o == o' && sameMap m m'
  | .newSms v n m o (some i), .newSms v' n' m' o' (some i') =>
    v == v' && n == n' && o == o' && sameMap m m' && sameMap i i'
  | a, b => decide (a = b)

theorem sameOp_eq {a b : JOp} (h : sameOp a b = true) : a = b := by
  unfold sameOp at h
  split at h
  · simp only [Bool.and_eq_true, beq_iff_eq] at h
    obtain ⟨⟨⟨rfl, rfl⟩, rfl⟩, h⟩ := h
    rw [sameMap_eq h]
  · simp only [Bool.and_eq_true, beq_iff_eq] at h
    obtain ⟨⟨⟨⟨rfl, rfl⟩, rfl⟩, h⟩, h'⟩ := h
    rw [sameMap_eq h, sameMap_eq h']
  · exact of_decide_eq_true h

/-- Whether the lists are the same. -/
def sameOps : List JOp → List JOp → Bool
  | [], [] => true
  | a :: as, b :: bs => sameOp a b && sameOps as bs
  | _, _ => false

theorem sameOps_eq : ∀ {a b : List JOp}, sameOps a b = true → a = b
  | [], [], _ => rfl
  | a :: as, b :: bs, h => by
    simp only [sameOps, Bool.and_eq_true] at h
    rw [sameOp_eq h.1, sameOps_eq h.2]
  | [], _ :: _, h => by cases h
  | _ :: _, [], h => by cases h

theorem made_of_check {w : World} {ops made : List JOp} (h : (spellAll w ops).any (sameOps made) = true) :
    MadeFrom w ops made := by
  cases e : spellAll w ops with
  | none => rw [e] at h; cases h
  | some l =>
    rw [e] at h
    rw [sameOps_eq (a := made) (b := l) h]
    exact spellAll_made e

/-- An object is rendered, its text and map are made a source, which is rendered again with a prefix, edited
and read; the second map is an inner map. -/
def c66Program : List JOp :=
  [.newOriginal "a;b {\n  c }\n".toList "a.js".toList,
   .newSms "pq\n".toList "g.js".toList (.plain [some "g.js".toList, some "h.js".toList] []
     [some "n".toList] "AAAAA,CCEAA".toList) none none,
   .newConcat [.str "x\n".toList, .obj 0, .obj 1], .sourceAndMap 2 true true, .get 0 .sources,
   .newSms "x\na;b {\n  c }\npq\n".toList "b.js".toList (.emitted 0) none none,
   .newPrefix "> ".toList (.obj 3), .sourceAndMap 4 true true, .set 1 (.sources [some "a.js".toList, some "c.js".toList, some "k.js".toList]),
   .newSms "rs\nt".toList "c.js".toList (.plain [some "c.js".toList] [] [] "AACI;AACA".toList) none
     (some (.emitted 1)),
   .newConcat [.obj 4, .obj 5]]

/-- The statements that make objects, with the maps as they read. -/
def c66Made : List JOp :=
  [.newOriginal "a;b {\n  c }\n".toList "a.js".toList,
   .newSms "pq\n".toList "g.js".toList (.plain [some "g.js".toList, some "h.js".toList] []
     [some "n".toList] "AAAAA,CCEAA".toList) none none,
   .newConcat [.str "x\n".toList, .obj 0, .obj 1],
   .newSms "x\na;b {\n  c }\npq\n".toList "b.js".toList
     (.plain [some "a.js".toList, some "g.js".toList, some "h.js".toList] [some "a;b {\n  c }\n".toList]
       [some "n".toList] ";AAAA,EAAE;AACF;ACDAA,CCEAA".toList) none none,
   .newPrefix "> ".toList (.obj 3),
   .newSms "rs\nt".toList "c.js".toList (.plain [some "c.js".toList] [] [] "AACI;AACA".toList) none
     (some (.plain [some "a.js".toList, some "c.js".toList, some "k.js".toList] [some "a;b {\n  c }\n".toList]
       [some "n".toList] ";AAAA,IAAE;AACF;ACDAA,GCEAA".toList)),
   .newConcat [.obj 4, .obj 5]]

theorem c66_made : MadeFrom World.empty c66Program c66Made := made_of_check (by decide +kernel)

theorem c66_meets : (∀ op ∈ c66Program, op.Proper) ∧ (∀ op ∈ c66Program, Spec.JOp.FewLines op) ∧ NamesFit c66Program ∧
    (∀ op ∈ c66Program, Spec.JOp.Simple op) ∧ ∀ op ∈ c66Made, Spec.JOp.Exact op := by
  refine ⟨?_, ?_, ?_, ?_, ?_⟩
  · simp [c66Program, JOp.Proper]
  · simp only [c66Program, List.forall_mem_cons, Spec.JOp.FewLines]
    unfold Spec.FewLines
    exact ⟨by decide, trivial, trivial, trivial, trivial, trivial, trivial, trivial, trivial, trivial, trivial, by simp⟩
  · exact .inl fun k l h => by simp [c66Program] at h
  · simp [c66Program, Spec.JOp.Simple]
  · intro op h
    simp only [c66Made, List.mem_cons, List.not_mem_nil, or_false] at h
    rcases h with rfl | rfl | rfl | rfl | rfl | rfl | rfl
    · trivial
    · exact ⟨⟨_, _, _, _, rfl, [⟨1, 0, some ⟨0, 1, 0, some 0⟩⟩, ⟨1, 1, some ⟨1, 3, 0, some 0⟩⟩],
        by decide +kernel, by simp [Point.Small], by simp [Point.Lt], by decide +kernel⟩, fun i hi => by cases hi⟩
    · trivial
    · exact ⟨⟨_, _, _, _, rfl, [⟨2, 0, some ⟨0, 1, 0, none⟩⟩, ⟨2, 2, some ⟨0, 1, 2, none⟩⟩, ⟨3, 0, some ⟨0, 2, 0, none⟩⟩,
          ⟨4, 0, some ⟨1, 1, 0, some 0⟩⟩, ⟨4, 1, some ⟨2, 3, 0, some 0⟩⟩],
        by decide +kernel, by simp [Point.Small], by simp [Point.Lt], by decide +kernel⟩, fun i hi => by cases hi⟩
    · trivial
    · refine ⟨⟨_, _, _, _, rfl, [⟨1, 0, some ⟨0, 2, 4, none⟩⟩, ⟨2, 0, some ⟨0, 3, 4, none⟩⟩],
        by decide +kernel, by simp [Point.Small], by simp [Point.Lt], by decide +kernel⟩, fun i hi => ?_⟩
      cases hi
      exact ⟨_, _, _, _, rfl, [⟨2, 0, some ⟨0, 1, 0, none⟩⟩, ⟨2, 4, some ⟨0, 1, 2, none⟩⟩, ⟨3, 0, some ⟨0, 2, 0, none⟩⟩,
          ⟨4, 0, some ⟨1, 1, 0, some 0⟩⟩, ⟨4, 3, some ⟨2, 3, 0, some 0⟩⟩],
        by decide +kernel, by simp [Point.Small], by simp [Point.Lt], by decide +kernel⟩
    · trivial
theorem c66_unreplaced : Unreplaced (jthings c66Program) false (.obj 6) := by
  refine .joined (items := [.obj 4, .obj 5]) (by decide +kernel) ?_
  intro i hi
  simp only [List.mem_cons, List.not_mem_nil, or_false] at hi
  rcases hi with rfl | rfl
  · exact .prefixed (p := "> ".toList) (c := .obj 3) (by decide +kernel) (.leaf rfl)
  · exact .leaf rfl
example : ((World.run (c66Program ++ [.sourceAndMap 6 true true])).toOption.map fun w =>
    [JField.source, .sources, .names, .mappings].map fun f => ((JOp.get 2 f).run w).toOption.map Prod.fst) =
    some [some (.field (.text "> x\n> a;b {\n>   c }\n> pq\nrs\nt".toList)),
      some (.field (.list [some "a.js".toList, some "g.js".toList, some "h.js".toList])),
      some (.field (.list [some "n".toList])),
      some (.field (.text ";AAAA,IAAE;AACF;ACDAA,GCEAA;AFFE;AACF".toList))] := by decide +kernel

/-- What is said of the object that is made of the first pair: what the pair said. -/
def c66Marks : PlacedMarks :=
  ("x\n".toList.map fun c => (c, none)) ++ c63From "a;" "a.js" 1 0 none ++ c63From "b {\n" "a.js" 1 2 none ++
  c63From "  c }\n" "a.js" 2 0 none ++ c63From "p" "g.js" 1 0 (some "n") ++ c63From "q\n" "h.js" 3 0 (some "n")

/-- What is said of the last object. -/
def c66Last : PlacedMarks :=
  [indentP "> ".toList c66Marks, c63From "rs\n" "a.js" 1 2 none ++ c63From "t" "a.js" 2 0 none].flatten

set_option synthInstance.maxSize 1000 in
theorem c66_marks : JPlaces (jthings c66Program) c66Made (.obj 3) c66Marks := by
  have e : c66Marks = placedBy (told [some "a.js".toList, some "g.js".toList, some "h.js".toList] [some "n".toList]
      [⟨2, 0, some ⟨0, 1, 0, none⟩⟩, ⟨2, 2, some ⟨0, 1, 2, none⟩⟩, ⟨3, 0, some ⟨0, 2, 0, none⟩⟩,
       ⟨4, 0, some ⟨1, 1, 0, some 0⟩⟩, ⟨4, 1, some ⟨2, 3, 0, some 0⟩⟩]) (1, 0) "x\na;b {\n  c }\npq\n".toList := by
    decide +kernel
  rw [e]
  exact .sms rfl (by decide +kernel)

set_option synthInstance.maxSize 1000 in
theorem c66_last : JPlaces (jthings c66Program) c66Made (.obj 6) c66Last := by
  refine .joined (items := [.obj 4, .obj 5]) (by decide +kernel) rfl ?_
  intro k i m hi hm
  match k, hi, hm with
  | 0, hi, hm =>
    cases hi; cases hm
    exact .prefixed (p := "> ".toList) (c := .obj 3) (by decide +kernel) c66_marks (prefixedP_indent _ _)
      fun _ => rfl
  | 1, hi, hm =>
    cases hi; cases hm
    have e : c63From "rs\n" "a.js" 1 2 none ++ c63From "t" "a.js" 2 0 none =
      placedBy (fun l c => (told [some "c.js".toList] [] [⟨1, 0, some ⟨0, 2, 4, none⟩⟩, ⟨2, 0, some ⟨0, 3, 4, none⟩⟩]
        l c).map (through (some "c.js".toList) (told [some "a.js".toList, some "c.js".toList, some "k.js".toList]
          [some "n".toList] [⟨2, 0, some ⟨0, 1, 0, none⟩⟩, ⟨2, 4, some ⟨0, 1, 2, none⟩⟩, ⟨3, 0, some ⟨0, 2, 0, none⟩⟩,
            ⟨4, 0, some ⟨1, 1, 0, some 0⟩⟩, ⟨4, 3, some ⟨2, 3, 0, some 0⟩⟩]))) (1, 0) "rs\nt".toList := by
      decide +kernel
    rw [e]
    exact .inner rfl (by decide +kernel) (by decide +kernel)
  | k + 2, hi, hm => simp at hi

/-- The same is said of the object that was rendered. -/
example : JPlaces (jthings c66Program) c66Made (.obj 2) c66Marks := by
  have e : c66Marks = [("x\n".toList.map fun c => (c, none)),
      ownPlaces (some "a.js".toList) (1, 0) (segments "a;b {\n  c }\n".toList),
      placedBy (told [some "g.js".toList, some "h.js".toList] [some "n".toList]
        [⟨1, 0, some ⟨0, 1, 0, some 0⟩⟩, ⟨1, 1, some ⟨1, 3, 0, some 0⟩⟩]) (1, 0) "pq\n".toList].flatten := by
    decide +kernel
  rw [e]
  refine .joined (items := [.str "x\n".toList, .obj 0, .obj 1]) (by decide +kernel) rfl ?_
  intro k i m hi hm
  match k, hi, hm with
  | 0, hi, hm => cases hi; cases hm; exact .str _
  | 1, hi, hm => cases hi; cases hm; exact .original rfl
  | 2, hi, hm => cases hi; cases hm; exact .sms rfl (by decide +kernel)
  | k + 3, hi, hm => simp at hi

/-! Non-trivial case for edits: `a;` is deleted in the text of the pair. -/

/-- The program. -/
def c66Cut : List JOp := c66Program ++ [.newReplace (.obj 3), .replace 7 2 3 []]

theorem c66_cutMade : MadeFrom World.empty c66Cut (c66Made ++ [.newReplace (.obj 3)]) :=
  made_of_check (by decide +kernel)

example : ∀ op ∈ c66Cut, Spec.JOp.Ahead op := by
  simp only [c66Cut, c66Program, List.cons_append, List.nil_append, List.forall_mem_cons, Spec.JOp.Ahead]
  exact ⟨trivial, trivial, trivial, trivial, trivial, trivial, trivial, trivial, trivial, trivial, trivial, trivial,
    by decide +kernel, by simp⟩

theorem c66_cutMarks : JPlaces (jthings c66Cut) (c66Made ++ [.newReplace (.obj 3)]) (.obj 3) c66Marks := by
  have e : c66Marks = placedBy (told [some "a.js".toList, some "g.js".toList, some "h.js".toList] [some "n".toList]
      [⟨2, 0, some ⟨0, 1, 0, none⟩⟩, ⟨2, 2, some ⟨0, 1, 2, none⟩⟩, ⟨3, 0, some ⟨0, 2, 0, none⟩⟩,
       ⟨4, 0, some ⟨1, 1, 0, some 0⟩⟩, ⟨4, 1, some ⟨2, 3, 0, some 0⟩⟩]) (1, 0) "x\na;b {\n  c }\npq\n".toList := by
    decide +kernel
  rw [e]
  exact .sms rfl (by decide +kernel)

example : Orderly (jthings c66Cut) (c66Made ++ [.newReplace (.obj 3)]) (mentions (c66Made ++ [.newReplace (.obj 3)]))
    (.obj 7) :=
  .forwards (u := c66Marks) (.replaced (c := .obj 3) (rs := [⟨2, 3, []⟩]) (by decide +kernel)
    (.leaf rfl c66_cutMarks)) (by decide +kernel)

set_option synthInstance.maxSize 1000 in
example : JCarries (jthings c66Cut) (c66Made ++ [.newReplace (.obj 3)]) (.obj 7)
    (("x\n".toList.map fun c => (c, none)) ++ c63From "b {\n" "a.js" 1 2 none ++ c63From "  c }\n" "a.js" 2 0 none ++
      c63From "p" "g.js" 1 0 (some "n") ++ c63From "q\n" "h.js" 3 0 (some "n")) := by
  have h : JCarries (jthings c66Cut) (c66Made ++ [.newReplace (.obj 3)]) (.obj 7)
      (applyRightP c66Marks ([((⟨2, 3, []⟩ : JRequest), 0)].map fun e => e.1.edit)) :=
    .replaced (es := [(⟨2, 3, []⟩, 0)]) (c := .obj 3) (rs := [⟨2, 3, []⟩]) (m := c66Marks)
      (by decide +kernel) ⟨.refl _, by simp⟩ (.leaf rfl c66_cutMarks)
  have e : (("x\n".toList.map fun c => (c, none)) ++ c63From "b {\n" "a.js" 1 2 none ++
      c63From "  c }\n" "a.js" 2 0 none ++ c63From "p" "g.js" 1 0 (some "n") ++ c63From "q\n" "h.js" 3 0 (some "n")) =
      applyRightP c66Marks ([((⟨2, 3, []⟩ : JRequest), 0)].map fun e => e.1.edit) := by decide +kernel
  rw [e]
  exact h

example : ((World.run (c66Cut ++ [.sourceAndMap 7 true true])).toOption.map fun w =>
    [JField.source, .sources, .names, .mappings].map fun f => ((JOp.get 2 f).run w).toOption.map Prod.fst) =
    some [some (.field (.text "x\nb {\n  c }\npq\n".toList)),
      some (.field (.list [some "a.js".toList, some "g.js".toList, some "h.js".toList])),
      some (.field (.list [some "n".toList])),
      some (.field (.text ";AAAA,AAAE;AACF;ACDAA,CCEAA".toList))] := by decide +kernel

/-! Non-trivial case for lines: the maps are readable, and the positions in them strictly increase. -/

example : (∀ op ∈ c66Made, Spec.JOp.Strict op) ∧ ∀ op ∈ c66Made, Spec.JOp.Readable true op := by
  constructor
  · intro op h
    simp only [c66Made, List.mem_cons, List.not_mem_nil, or_false] at h
    rcases h with rfl | rfl | rfl | rfl | rfl | rfl | rfl
    all_goals first
      | trivial
      | exact ⟨[⟨1, 0, some ⟨0, 1, 0, some 0⟩⟩, ⟨1, 1, some ⟨1, 3, 0, some 0⟩⟩], by decide +kernel, by simp [Point.Lt]⟩
      | exact ⟨[⟨2, 0, some ⟨0, 1, 0, none⟩⟩, ⟨2, 2, some ⟨0, 1, 2, none⟩⟩, ⟨3, 0, some ⟨0, 2, 0, none⟩⟩,
          ⟨4, 0, some ⟨1, 1, 0, some 0⟩⟩, ⟨4, 1, some ⟨2, 3, 0, some 0⟩⟩], by decide +kernel, by simp [Point.Lt]⟩
      | exact ⟨[⟨1, 0, some ⟨0, 2, 4, none⟩⟩, ⟨2, 0, some ⟨0, 3, 4, none⟩⟩], by decide +kernel, by simp [Point.Lt]⟩
  · intro op h
    simp only [c66Made, List.mem_cons, List.not_mem_nil, or_false] at h
    rcases h with rfl | rfl | rfl | rfl | rfl | rfl | rfl
    all_goals first | trivial | exact ⟨_, _, _, _, rfl, fun _ => by decide +kernel⟩

end WS
