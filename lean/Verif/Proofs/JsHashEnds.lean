import Verif.Proofs.JsHash
/-! # Hashing ends -/

namespace WS
open Spec

/-! ## Growing sets of numbers -/

/-- A growing family of sets of numbers below `N`, constant once it stops growing, is constant from
`N` on. -/
theorem grows_stop {N : Nat} {f : Nat → Nat → Bool} (up : ∀ n j, f n j = true → f (n + 1) j = true)
    (out : ∀ n j, N ≤ j → f n j = false)
    (step : ∀ n, (∀ j, f n j = f (n + 1) j) → ∀ j, f (n + 1) j = f (n + 2) j) (m j : Nat)
    (h : f m j = true) : f N j = true := by
  have count : ∀ n, (∀ j, f n j = f (n + 1) j) ∨ n + 1 ≤ ((List.range N).filter (f (n + 1))).length := by
    intro n
    induction n with
    | zero =>
      by_cases hs : ∀ j, f 0 j = f 1 j
      · exact .inl hs
      · right
        obtain ⟨j, hj⟩ := Classical.not_forall.1 hs
        have h1 : f 1 j = true := by
          cases h1 : f 1 j with
          | true => rfl
          | false =>
            cases h0 : f 0 j with
            | true => exact (up 0 j h0).symm.trans h1 |>.symm ▸ rfl
            | false => exact absurd (h0.trans h1.symm) hj
        have hN : j < N := Nat.lt_of_not_le fun h => by rw [out 1 j h] at h1; cases h1
        exact List.length_pos_of_mem (List.mem_filter.2 ⟨List.mem_range.2 hN, h1⟩)
    | succ n ih =>
      by_cases hs : ∀ j, f (n + 1) j = f (n + 2) j
      · exact .inl hs
      · rcases ih with ih | ih
        · exact absurd (step n ih) hs
        · right
          obtain ⟨j, hj⟩ := Classical.not_forall.1 hs
          have h0 : f (n + 1) j = false := by
            cases h0 : f (n + 1) j with
            | false => rfl
            | true => exact absurd (h0.trans (up _ j h0).symm) hj
          have h1 : f (n + 2) j = true := by
            cases h1 : f (n + 2) j with
            | true => rfl
            | false => exact absurd (h0.trans h1.symm) hj
          have hN : j < N := Nat.lt_of_not_le fun h => by rw [out _ j h] at h1; cases h1
          have : ∀ l : List Nat, j ∈ l → (l.filter (f (n + 1))).length < (l.filter (f (n + 2))).length := by
            have le : ∀ l : List Nat, (l.filter (f (n + 1))).length ≤ (l.filter (f (n + 2))).length := by
              intro l
              induction l with
              | nil => exact Nat.le_refl _
              | cons x l ih =>
                simp only [List.filter_cons]
                split
                · rename_i hx; rw [if_pos (up _ _ hx)]; simpa using ih
                · split
                  · simp; omega
                  · exact ih
            intro l
            induction l with
            | nil => intro h; cases h
            | cons x l ih =>
              intro hm
              have hle := le l
              simp only [List.filter_cons]
              rcases List.mem_cons.1 hm with rfl | hm
              · rw [if_neg (by simp [h0]), if_pos h1]; simp; omega
              · have := ih hm
                split
                · rename_i hx; rw [if_pos (up _ _ hx)]; simpa using this
                · split
                  · simp; omega
                  · exact this
          have h2 := this _ (List.mem_range.2 hN)
          exact Nat.succ_le_of_lt (Nat.lt_of_le_of_lt ih h2)
  have hN : j < N := Nat.lt_of_not_le fun h' => by rw [out _ j h'] at h; cases h
  have later : ∀ n, f n j = true → ∀ d, f (n + d) j = true := by
    intro n hn d
    induction d with
    | zero => exact hn
    | succ d ih => exact up _ _ ih
  have stable : ∀ n, (∀ j, f n j = f (n + 1) j) → ∀ d, f (n + d) j = f n j := by
    intro n hs d
    have all : ∀ d j, f (n + d) j = f (n + d + 1) j := by
      intro d
      induction d with
      | zero => exact hs
      | succ d ih => exact step _ ih
    induction d with
    | zero => rfl
    | succ d ih => exact (all d j).symm.trans ih
  rcases count (N - 1) with hs | hc
  · by_cases hm : m ≤ N - 1
    · have := later m h (N - m)
      rwa [show m + (N - m) = N by omega] at this
    · have h2 := stable _ hs (m - (N - 1))
      rw [show N - 1 + (m - (N - 1)) = m by omega, h] at h2
      have := later _ h2.symm 1
      rwa [show N - 1 + 1 = N by omega] at this
  · have e : N - 1 + 1 = N := by omega
    rw [e] at hc
    have : (List.range N).filter (f N) = List.range N := by
      apply List.Sublist.eq_of_length List.filter_sublist
      have := List.length_filter_le (f N) (List.range N)
      simp only [List.length_range] at this ⊢
      omega
    have hj := List.mem_range.2 hN
    rw [← this] at hj
    exact (List.mem_filter.1 hj).2

/-! ## The depth of the objects -/

/-- The objects `updateHash` asks, in turn. -/
def JKind.kids : JKind → List JSrc
  | .prefixed _ c => [c]
  | .concat cs => cs
  | _ => []

/-- Asking ends within this depth. -/
def within (objs : List JObj) : Nat → Nat → Bool
  | 0, _ => false
  | n + 1, j =>
    match objs[j]? with
    | none => false
    | some o => o.kind.kids.all fun
      | .str _ => true
      | .obj k => within objs n k

theorem within_stop {objs : List JObj} {m j : Nat} (h : within objs m j = true) :
    within objs objs.length j = true := by
  have up : ∀ n j, within objs n j = true → within objs (n + 1) j = true := by
    intro n
    induction n with
    | zero => intro j h; cases h
    | succ n ih =>
      intro j h
      rw [within] at h ⊢
      split at h
      · cases h
      · rw [List.all_eq_true] at h ⊢
        intro c hc
        have := h c hc
        split at this <;> simp_all
  refine grows_stop up ?_ ?_ m j h
  · intro n j hj
    cases n with
    | zero => rfl
    | succ n => rw [within, List.getElem?_eq_none hj]
  · intro n hs j
    rw [within, within]
    split
    · rfl
    · congr 1
      funext c
      split
      · rfl
      · exact hs _

theorem within_more {objs : List JObj} {n m j : Nat} (hm : n ≤ m) (h : within objs n j = true) :
    within objs m j = true := by
  induction n generalizing m j with
  | zero => cases h
  | succ n ih =>
    cases m with
    | zero => omega
    | succ m =>
      rw [within] at h ⊢
      split at h
      · cases h
      · rw [List.all_eq_true] at h ⊢
        intro c hc
        have := h c hc
        split at this
        · rfl
        · exact ih (by omega) this

/-! ## What can be hashed -/

/-- Asking ends, at objects that have a text where it is needed. -/
inductive Ready (objs : List JObj) (st : List JThing) : JSrc → Prop where
  | str (s : Str) : Ready objs st (.str s)
  | obj {j : Nat} {o : JObj} : objs[j]? = some o → (∀ c, o.kind = .replace c → ∃ s, JText st (.obj j) s) →
      (∀ c ∈ o.kind.kids, Ready objs st c) → Ready objs st (.obj j)

theorem Ready.within {objs : List JObj} {st : List JThing} {c : JSrc} (h : Ready objs st c) :
    ∀ j, c = .obj j → ∃ n, within objs n j = true := by
  induction h with
  | str s => intro j h; cases h
  | @obj j o ho _ _ ih =>
    intro j' hj
    cases hj
    have : ∀ cs : List JSrc, (∀ c ∈ cs, ∀ j, c = .obj j → ∃ n, WS.within objs n j = true) →
        ∃ n, cs.all (fun | .str _ => true | .obj k => WS.within objs n k) = true := by
      intro cs
      induction cs with
      | nil => intro _; exact ⟨0, rfl⟩
      | cons c cs ih =>
        intro h
        obtain ⟨n, hn⟩ := ih fun c hc => h c (by simp [hc])
        have hc := h c (by simp)
        clear h
        have : ∃ m, n ≤ m ∧ (fun | JSrc.str _ => true | .obj k => WS.within objs m k) c = true := by
          cases c with
          | str s => exact ⟨n, Nat.le_refl _, rfl⟩
          | obj k =>
            obtain ⟨m, hm⟩ := hc k rfl
            exact ⟨max n m, Nat.le_max_left .., within_more (Nat.le_max_right ..) hm⟩
        obtain ⟨m, hnm, hm⟩ := this
        refine ⟨m, ?_⟩
        rw [List.all_cons, Bool.and_eq_true]
        refine ⟨hm, ?_⟩
        rw [List.all_eq_true] at hn ⊢
        intro c hc
        have := hn c hc
        split at this
        · rfl
        · rename_i k; exact within_more hnm this
    obtain ⟨n, hn⟩ := this o.kind.kids ih
    exact ⟨n + 1, by rw [WS.within, ho]; exact hn⟩

theorem Ready.kids {objs : List JObj} {st : List JThing} {j : Nat} (h : Ready objs st (.obj j)) {o : JObj}
    (ho : objs[j]? = some o) : ∀ c ∈ o.kind.kids, Ready objs st c := by
  cases h with
  | obj ho' _ hk => rw [ho] at ho'; cases ho'; exact hk

/-- Hashing returns. -/
theorem hash_returns {st : List JThing} {A : AHeap} {F : List JSrc} : ∀ (n : Nat) (w : World) (j : Nat),
    w.Inv A st → Children w.objs st F → Ready w.objs st (.obj j) → within w.objs n j = true →
    ∃ l w', World.hashObj n w j = .ok (l, w')
  | 0, _, _, _, _, _, h => by cases h
  | n + 1, w, j, I, C, R, h => by
    have each : ∀ (cs : List JSrc) (w : World), w.Inv A st → Children w.objs st F → (∀ c ∈ cs, Ready w.objs st c) →
        cs.all (fun | .str _ => true | .obj k => within w.objs n k) = true →
        ∃ l w', World.hashEach (World.hashObj n) w cs = .ok (l, w') := by
      intro cs
      induction cs with
      | nil => intro w _ _ _ _; exact ⟨[], w, rfl⟩
      | cons c cs ih =>
        intro w I C R h
        rw [List.all_cons, Bool.and_eq_true] at h
        cases c with
        | str s =>
          obtain ⟨l, w', e⟩ := ih w I C (fun c hc => R c (by simp [hc])) h.2
          exact ⟨s :: l, w', by rw [World.hashEach, e]; rfl⟩
        | obj k =>
          obtain ⟨l, w1, e1⟩ := hash_returns n w k I C (R _ (by simp)) h.1
          obtain ⟨I1, h1, -⟩ := (hash_step n).1 _ _ _ _ I C e1
          obtain ⟨l', w', e⟩ := ih w1 I1 (h1 ▸ C) (fun c hc => by rw [h1]; exact R c (by simp [hc]))
            (by rw [h1]; exact h.2)
          exact ⟨l ++ l', w', by rw [World.hashEach, e1]; simp only [Except.bind, e, Except.map]⟩
    rw [within] at h
    rw [World.hashObj]
    split
    · rename_i hj; rw [hj] at h; cases h
    · rename_i o ho
      rw [ho] at h
      dsimp only at h
      have kids := R.kids ho
      split
      · exact ⟨_, _, rfl⟩
      · exact ⟨_, _, rfl⟩
      · exact ⟨_, _, rfl⟩
      · exact ⟨_, _, rfl⟩
      · rename_i p c hk
        rw [hk] at kids h
        obtain ⟨l, w', e⟩ := each [c] w I C kids h
        exact ⟨l ++ [p], w', by rw [e]; rfl⟩
      · rename_i c hk
        cases R with
        | obj ho' ht _ =>
          rw [ho] at ho'
          cases ho'
          obtain ⟨s, hs⟩ := ht c hk
          obtain ⟨w', e⟩ := (I.source_iff j s).2 hs
          exact ⟨[s], w', by rw [e]; rfl⟩
      · rename_i cs hk
        rw [hk] at kids h
        exact each _ w I C kids h

/-! ## ConcatSources do not contain themselves -/

/-- The ConcatSources given to a ConcatSource come before it in some order. -/
def Ranked (objs : List JObj) : Prop :=
  ∃ r : Nat → Nat, ∀ (l p : Nat) (cs : List JSrc), objs[l]? = some ⟨p, .concat cs⟩ → ∀ k : Nat, JSrc.obj k ∈ cs →
    ∀ (q : Nat) (ds : List JSrc), objs[k]? = some ⟨q, .concat ds⟩ → r k < r l

theorem Ranked.push {objs : List JObj} (R : Ranked objs)
    (C : ∀ (l p : Nat) (cs : List JSrc), objs[l]? = some ⟨p, .concat cs⟩ → ∀ k : Nat, JSrc.obj k ∈ cs → k < objs.length)
    (o : JObj) (h : ∀ cs, o.kind = .concat cs → cs = []) : Ranked (objs ++ [o]) := by
  obtain ⟨r, hr⟩ := R
  refine ⟨r, ?_⟩
  intro l p cs hl k hk q ds hq
  rw [getElem?_snoc] at hl hq
  split at hl
  · cases hl
    rw [h cs rfl] at hk
    cases hk
  · have := C l p cs hl k hk
    rw [if_neg (by omega)] at hq
    exact hr l p cs hl k hk q ds hq

theorem Ranked.addItem {w w' : World} {j : Nat} {item : JSrc} (R : Ranked w.objs)
    (hj : ∀ (l p : Nat) (cs : List JSrc), w'.objs[l]? = some ⟨p, .concat cs⟩ → JSrc.obj j ∉ cs)
    (e : w.addItem j item = .ok w') : Ranked w'.objs := by
  obtain ⟨r, hr⟩ := R
  simp only [World.addItem] at e
  split at e
  · rename_i ptr cs ho
    simp only [Except.bind_ok_iff, Except.map_ok_iff] at e
    obtain ⟨s, hs, ⟨ans, w1⟩, h1, rfl⟩ := e
    dsimp only at hj ⊢
    have other : ∀ k : Nat, k ≠ j → (w.objs.set j ⟨ptr, .concat (cs ++ [item])⟩)[k]? = w.objs[k]? :=
      fun k hk => List.getElem?_set_ne (Ne.symm hk)
    refine ⟨fun k => if k = j then r j + (match item with | .obj i => r i | _ => 0) + 1 else r k, ?_⟩
    intro l p ds hl k hk q es hq
    have hkj : k ≠ j := by rintro rfl; exact hj l p ds hl hk
    rw [other k hkj] at hq
    dsimp only
    rw [if_neg hkj]
    by_cases hlj : l = j
    · subst hlj
      rw [List.getElem?_set_self (List.getElem?_eq_some_iff.1 ho).1] at hl
      cases hl
      rw [if_pos rfl]
      rw [List.mem_append, List.mem_singleton] at hk
      rcases hk with hk | rfl
      · have := hr _ _ _ ho k hk q es hq
        omega
      · dsimp only; omega
    · rw [other l hlj] at hl
      rw [if_neg hlj]
      exact hr l p ds hl k hk q es hq
  · cases e

theorem Ranked.addItems {items : List JSrc} {w w' : World} {A : AHeap} {st : List JThing} {F : List JSrc}
    (R : Ranked w.objs) (C : Children w.objs st F) (I : w.Inv A st) {j : Nat}
    (hj : ∀ (l p : Nat) (cs : List JSrc), w.objs[l]? = some ⟨p, .concat cs⟩ → JSrc.obj j ∉ cs)
    (e : w.addItems j items = .ok w') : Ranked w'.objs := by
  induction items generalizing w A st F with
  | nil => cases e; exact R
  | cons i items ih =>
    simp only [World.addItems, Except.bind_ok_iff] at e
    obtain ⟨w1, h1, h2⟩ := e
    obtain ⟨A1, I1⟩ := I.addItem h1
    obtain ⟨C1, hj1⟩ := C.addItem I hj h1
    exact ih (R.addItem hj1 h1) C1 I1 hj1 h2

theorem JOp.run_ranked {w w' : World} {A : AHeap} {st : List JThing} {F : List JSrc}
    (I : w.Inv A st) (C : Children w.objs st F) (R : Ranked w.objs) {op : JOp}
    (hs : ∀ j item, op = .add j item → JSrc.obj j ∉ F)
    {a : JAnswer} (e : op.run w = .ok (a, w')) : Ranked w'.objs := by
  have plain : ∀ {k : JKind} {w0 : World}, w.Same w0 →
      (∀ cs, k ≠ .concat cs) → (∃ p, w'.objs = w0.objs ++ [⟨p, k⟩]) → Ranked w'.objs := by
    intro k w0 s hk ⟨p, h⟩
    rw [h, s.objs]
    exact R.push (fun l p cs h k hk => (C.frozen l p cs h k hk).1) _ (fun cs hc => absurd hc (hk cs))
  have same : w'.objs = w.objs → Ranked w'.objs := by
    intro h; rw [h]; exact R
  cases op with
  | newRaw v =>
    simp only [JOp.run, Except.map_ok_iff] at e
    obtain ⟨w1, h, h2⟩ := e; cases h2
    refine plain (k := .raw v) (.rfl' w) (by simp) ?_
    simp only [World.newRaw] at h
    split at h
    · cases h; exact ⟨_, rfl⟩
    · simp only [Except.map_ok_iff] at h
      obtain ⟨w2, h3, rfl⟩ := h
      obtain ⟨p, hp⟩ := World.create_objs h3
      exact ⟨p, hp⟩
  | newOriginal v n =>
    simp only [JOp.run, Except.map_ok_iff] at e
    obtain ⟨w1, h, h2⟩ := e; cases h2
    refine plain (k := .original v)
      ((w.internNew_same (some v)).trans ((w.internNew (some v)).2.intern_same (some n))) (by simp) ?_
    simp only [World.newOriginal] at h
    split at h
    · split at h
      · cases h; exact ⟨_, rfl⟩
      · simp only [Except.map_ok_iff] at h
        obtain ⟨w2, h3, rfl⟩ := h
        obtain ⟨p, hp⟩ := World.create_objs h3
        exact ⟨p, hp⟩
    · exact World.create_objs h
  | newL2l v n o =>
    simp only [JOp.run, Except.map_ok_iff] at e
    obtain ⟨w1, h, h2⟩ := e; cases h2
    exact plain ((w.intern_same (some n)).trans ((w.intern (some n)).2.internNew_same (some o)))
      (by simp) (World.create_objs h)
  | newSms v n m o i =>
    simp only [JOp.run, Except.map_ok_iff] at e
    obtain ⟨w1, h, h2⟩ := e; cases h2
    simp only [World.newSms, Except.bind_ok_iff] at h
    obtain ⟨m, h1, i, h2, h3⟩ := h
    have s1 := (w.internNew_same (some v)).trans ((w.internNew (some v)).2.intern_same (some n))
    have s2 := s1.trans (World.give_same h1)
    have s3 : w.Same i.2 := by
      refine World.Same.trans ?_ (World.giveInner_same h2)
      cases truthy o with
      | none => exact s2
      | some s => exact s2.trans (World.internNew_same _ _)
    exact plain s3 (by simp) (World.create_objs h3)
  | newPrefix p c =>
    simp only [JOp.run, Except.map_ok_iff, Except.bind_ok_iff] at e
    obtain ⟨s, hs, _, h, h2⟩ := e; cases h2
    exact plain (.rfl' w) (by simp) (World.create_objs h)
  | newReplace c =>
    simp only [JOp.run, Except.map_ok_iff, Except.bind_ok_iff] at e
    obtain ⟨s, hs, _, h, h2⟩ := e; cases h2
    exact plain (.rfl' w) (by simp) (World.create_objs h)
  | newConcat items =>
    simp only [JOp.run, Except.map_ok_iff, Except.bind_ok_iff] at e
    obtain ⟨w1, h1, w2, h2, h3⟩ := e; cases h3
    have J := I.create (a := .concat []) (x := .joined []) h1 (by intro A' h; cases h; rfl)
      (.joined (is := []) (by simp) rfl)
    obtain ⟨p, hp⟩ := World.create_objs h1
    have C1 : Children w1.objs (st ++ [.joined []]) F := by
      rw [hp]
      refine C.push _ _ ?_
      intro cs hcs; cases hcs; exact ⟨rfl, rfl⟩
    have R1 : Ranked w1.objs := by
      rw [hp]
      refine R.push (fun l p cs h k hk => (C.frozen l p cs h k hk).1) _ ?_
      intro cs hcs; cases hcs; rfl
    have hj : ∀ (l p : Nat) (cs : List JSrc), w1.objs[l]? = some ⟨p, .concat cs⟩ →
        JSrc.obj w.objs.length ∉ cs := by
      intro l q cs hl hm
      rw [hp, getElem?_snoc] at hl
      split at hl
      · cases hl; cases hm
      · have := (C.frozen _ _ _ hl _ hm).1
        omega
    exact R1.addItems C1 J hj h2
  | add j item =>
    simp only [JOp.run, Except.map_ok_iff] at e
    obtain ⟨_, h, h2⟩ := e; cases h2
    refine R.addItem (C.addItem I ?_ h).2 h
    intro l p cs hl hm
    exact hs j item rfl (C.frozen l p cs hl j hm).2
  | replace j a b t =>
    simp only [JOp.run] at e
    split at e
    · simp only [Except.map_ok_iff] at e
      obtain ⟨p, h1, h2⟩ := e; cases h2
      exact same (World.call_objs h1)
    · cases e
  | insert j a t =>
    simp only [JOp.run] at e
    split at e
    · simp only [Except.map_ok_iff] at e
      obtain ⟨p, h1, h2⟩ := e; cases h2
      exact same (World.call_objs h1)
    · cases e
  | source j =>
    simp only [JOp.run, Except.map_ok_iff] at e
    obtain ⟨_, h, h2⟩ := e; cases h2; exact same (World.readSource_objs h)
  | size j =>
    simp only [JOp.run, Except.map_ok_iff] at e
    obtain ⟨_, h, h2⟩ := e; cases h2; exact same (World.readSize_objs h)
  | sourceAndMap j c m => exact same (World.emit_objs e)
  | hash j =>
    simp only [JOp.run, Except.map_ok_iff] at e
    obtain ⟨_, h, h2⟩ := e; cases h2
    exact same ((hash_step _).1 _ _ _ _ I C h).2.1
  | get k f =>
    simp only [JOp.run] at e
    split at e
    · cases e
    · simp only [Except.map_ok_iff] at e
      obtain ⟨p, h1, h2⟩ := e; cases h2
      exact same rfl
  | set k f =>
    simp only [JOp.run] at e
    split at e
    · cases e
    · cases e
      exact same rfl

theorem World.runFrom_ranked {ops : List JOp} {w w' : World} {A : AHeap} {st : List JThing}
    {F : List JSrc} (I : w.Inv A st) (C : Children w.objs st F) (R : Ranked w.objs)
    (hp : ∀ op ∈ ops, op.Proper) (hs : Settled ops)
    (hF : ∀ op ∈ ops, ∀ j item, op = .add j item → JSrc.obj j ∉ F)
    (e : w.runFrom ops = .ok w') : Ranked w'.objs := by
  induction ops generalizing w A st F with
  | nil => cases e; exact R
  | cons op ops ih =>
    simp only [World.runFrom, Except.bind_ok_iff] at e
    obtain ⟨⟨a, w1⟩, h1, h2⟩ := e
    obtain ⟨A1, I1⟩ := JOp.run_inv I (hp op (by simp)) h1
    have C1 := JOp.run_children I C (hp op (by simp)) (hF op (by simp)) h1
    have R1 := JOp.run_ranked I C R (hF op (by simp)) h1
    rw [Settled, List.pairwise_cons] at hs
    refine ih I1 C1 R1 (fun o ho => hp o (by simp [ho])) hs.2 ?_ h2
    intro o ho j item e
    rw [List.mem_append]
    rintro (h | h)
    · exact hF o (by simp [ho]) j item e h
    · exact hs.1 o ho j item e h

/-! ## Objects with a text -/

theorem Ready.concat {w : World} {A : AHeap} {st : List JThing} {F : List JSrc} (C : Children w.objs st F)
    {r : Nat → Nat} (hr : ∀ (l p : Nat) (cs : List JSrc), w.objs[l]? = some ⟨p, .concat cs⟩ → ∀ k : Nat,
      JSrc.obj k ∈ cs → ∀ (q : Nat) (ds : List JSrc), w.objs[k]? = some ⟨q, .concat ds⟩ → r k < r l)
    (I : w.Inv A st) : ∀ (n l p : Nat) (cs : List JSrc), r l < n → w.objs[l]? = some ⟨p, .concat cs⟩ →
    (∀ i ∈ cs.flatMap (flat st), Ready w.objs st i) → Ready w.objs st (.obj l)
  | 0, _, _, _, h, _, _ => by omega
  | n + 1, l, p, cs, hn, hl, h => by
    refine .obj hl (fun c hc => by cases hc) fun c hc => ?_
    cases c with
    | str s => exact .str s
    | obj k =>
      have hk := (C.frozen l p cs hl k hc).1
      have hko := List.getElem?_eq_getElem hk
      have sub : ∀ i ∈ flat st (.obj k), Ready w.objs st i :=
        fun i hi => h i (List.mem_flatMap.2 ⟨_, hc, hi⟩)
      generalize w.objs[k] = o at hko
      obtain ⟨q, kind⟩ := o
      obtain ⟨x, hx, sim⟩ := I.sim.get' hko
      simp only [flat, hx] at sub
      cases hkind : kind with
      | concat ds =>
        subst hkind
        have hxs := C.items k q ds hko
        rw [hx] at hxs
        cases hxs
        exact Ready.concat C hr I n k q ds (by have := hr l p cs hl k hc q ds hko; omega) hko sub
      | _ =>
        refine sub (.obj k) ?_
        subst hkind
        cases sim <;> simp

theorem JKind.kids_leaf {k : JKind} {v : Str} (h : k.value = some v) : k.kids = [] ∧ ∀ c, k ≠ .replace c := by
  cases k <;> cases h <;> exact ⟨rfl, by simp⟩

theorem Ready.of_text {w : World} {A : AHeap} {st : List JThing} {F : List JSrc} (C : Children w.objs st F)
    (R : Ranked w.objs) (I : w.Inv A st) {src : JSrc} {s : Str} (h : JText st src s) : Ready w.objs st src := by
  obtain ⟨r, hr⟩ := R
  induction h with
  | str s => exact .str s
  | leaf hx =>
    obtain ⟨⟨p, kind⟩, ho, sim⟩ := I.sim.get hx
    refine .obj ho ?_ ?_
    · intro c hc; dsimp only at hc; subst hc; cases sim; rename_i h; cases h
    · dsimp only at sim ⊢
      generalize hk : kind.extra = ex at sim
      cases sim with
      | leaf hv _ _ => rw [(JKind.kids_leaf hv).1]; intro c hc; cases hc
  | prefixed hx _ ih =>
    obtain ⟨⟨p, kind⟩, ho, sim⟩ := I.sim.get hx
    dsimp only at sim
    cases sim
    refine .obj ho (fun c hc => by cases hc) ?_
    intro c hc
    cases List.mem_singleton.1 hc
    exact ih
  | replaced hx hc hr _ =>
    obtain ⟨⟨p, kind⟩, ho, sim⟩ := I.sim.get hx
    dsimp only at sim
    cases sim
    exact .obj ho (fun _ _ => ⟨_, .replaced hx hc hr⟩) (fun c hc => by cases hc)
  | @joined j items ss hx hl _ ih =>
    obtain ⟨⟨p, kind⟩, ho, sim⟩ := I.sim.get hx
    dsimp only at sim
    cases sim with
    | @joined cs _ _ _ _ =>
      have hi := C.items j p cs ho
      rw [hx] at hi
      cases hi
      refine Ready.concat C hr I (r j + 1) j p cs (by omega) ho ?_
      intro i hi
      obtain ⟨k, hk⟩ := List.getElem?_of_mem hi
      have hlt := (List.getElem?_eq_some_iff.1 hk).1
      exact ih k i _ hk (List.getElem?_eq_getElem (by omega))

end WS
