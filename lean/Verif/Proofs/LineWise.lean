import Verif.Proofs.ListText
/-! # List maps that hand out their text line by line -/

namespace WS
open Spec

theorem Aligned.ne_nil {cs : List Str} (h : Aligned cs) : cs ≠ [] := by
  rintro rfl; exact h

theorem Aligned.of_append : ∀ {xs ys : List Str}, Aligned (xs ++ ys) → ys ≠ [] → Aligned ys
  | [], _, h, _ => h
  | x :: xs, ys, h, hy => by
    cases hx : xs ++ ys with
    | nil => simp_all
    | cons z zs =>
      rw [List.cons_append, hx] at h
      apply Aligned.of_append (xs := xs) _ hy
      rw [hx]; exact h.2.2

theorem Aligned.second {a b : Str} {ys : List Str} (h : Aligned (a :: b :: ys)) :
    a.getLast? = some '\n' ∧ b ≠ [] := by
  refine ⟨h.1, ?_⟩
  intro hb
  cases ys with
  | nil => apply h.2.1; simp [hb]
  | cons y ys => have := h.2.2.1; rw [hb] at this; cases this

theorem Aligned.replace_tail : ∀ {xs ys zs : List Str}, Aligned (xs ++ ys) → ys ≠ [] → Aligned zs →
    ys.flatten = zs.flatten → Aligned (xs ++ zs)
  | [], _, _, _, _, hz, _ => hz
  | x :: xs, ys, zs, h, hy, hz, e => by
    cases hx : xs ++ ys with
    | nil => exact absurd (List.append_eq_nil_iff.1 hx).2 hy
    | cons z l =>
      rw [List.cons_append, hx] at h
      have h3 : Aligned (xs ++ ys) := by rw [hx]; exact h.2.2
      refine Aligned.cons h.1 ?_ (Aligned.replace_tail h3 hy hz e)
      have := h.2.1
      rw [← hx, List.flatten_append, e, ← List.flatten_append] at this
      exact this

/-- Joining neighbours. -/
theorem Aligned.merge {xs ys : List Str} {a b : Str} (h : Aligned (xs ++ a :: b :: ys)) :
    Aligned (xs ++ (a ++ b) :: ys) := by
  have h' := h.of_append (by simp)
  refine h.replace_tail (by simp) ?_ (by simp)
  cases ys with
  | nil => trivial
  | cons y ys =>
    refine Aligned.cons ?_ h'.2.2.2.1 h'.2.2.2.2
    rw [List.getLast?_append, h'.2.2.1]; rfl

theorem Aligned.collapse {xs : List Str} : ∀ {ys : List Str} {a : Str}, Aligned (xs ++ a :: ys) →
    Aligned (xs ++ [a ++ ys.flatten])
  | [], a, h => by simpa using h
  | y :: ys, a, h => by
    have := (h.merge).collapse
    simpa [List.append_assoc] using this

theorem Aligned.append {xs ys : List Str} (hx : Aligned xs) (hy : Aligned ys)
    (h1 : xs.flatten.getLast? = some '\n') (h2 : ys.flatten ≠ []) : Aligned (xs ++ ys) := by
  induction xs with
  | nil => exact hx.elim
  | cons x xs ih =>
    cases xs with
    | nil => exact Aligned.cons (by simpa using h1) h2 hy
    | cons z zs =>
      refine Aligned.cons hx.1 ?_ (ih hx.2.2 ?_)
      · intro h; apply hx.2.1
        have h : ((z :: zs) ++ ys).flatten = [] := h
        rw [List.flatten_append] at h
        exact (List.append_eq_nil_iff.1 h).1
      · rw [List.flatten_cons, List.getLast?_append,
          List.getLast?_eq_some_getLast hx.2.1] at h1
        rw [List.getLast?_eq_some_getLast hx.2.1]
        simpa using h1

/-- The flag of the node tells whether its code ends with a newline. -/
def LNode.Exact : LNode → Prop
  | .code _ => True
  | .source n => n.endsNl = endsNl n.code
  | .single n => n.endsNl = endsNl n.code
  | _ => False

/-- Every child holds whole lines and knows whether it ends with a newline. -/
def LinesMap (m : Slm) : Prop := (∀ n ∈ m, n.Exact) ∧ Aligned (m.map LNode.text)

theorem LNode.Exact.aligned {n : LNode} (h : n.Exact) : Aligned (n.normalized.map LNode.codeOf) ∧
    (n.normalized.map LNode.codeOf).flatten = n.text := by
  cases n with
  | code s => exact ⟨trivial, by simp [LNode.normalized, LNode.codeOf, LNode.text]⟩
  | single s => exact ⟨trivial, by simp [LNode.normalized, LNode.codeOf, LNode.text]⟩
  | source n =>
    rw [LNode.normalized]
    simp only [LNode.Exact] at h
    rw [h]
    exact ⟨normLines_aligned _ _ _ _, normLines_codes _ _ _ _ _ (fun e => .inr ((endsNl_iff _).1 e))⟩
  | _ => exact h.elim

theorem LinesMap.aligned {m : Slm} (h : LinesMap m) : Aligned (normCodes m) ∧ (normCodes m).flatten = slmText m := by
  obtain ⟨h1, h2⟩ := h
  induction m with
  | nil => exact h2.elim
  | cons n m ih =>
    obtain ⟨e1, e2⟩ := LNode.Exact.aligned (h1 n (by simp))
    cases m with
    | nil =>
      have : normCodes [n] = n.normalized.map LNode.codeOf := by simp [normCodes]
      rw [this]
      exact ⟨e1, by rw [e2]; simp [slmText]⟩
    | cons k m =>
      obtain ⟨i1, i2⟩ := ih (fun x hx => h1 x (by simp [hx])) h2.2.2
      have : normCodes (n :: k :: m) = n.normalized.map LNode.codeOf ++ normCodes (k :: m) := by
        simp [normCodes]
      rw [this]
      refine ⟨e1.append i1 (by rw [e2]; exact h2.1) ?_, ?_⟩
      · rw [i2]; exact h2.2.1
      · rw [List.flatten_append, e2, i2]; simp [slmText]

/-! ## Prefixing -/

theorem merge_exact {a b c : LNode} (ha : a.Exact) (hb : b.Exact) (hne : b.text ≠ []) (h : a.merge b = some c) :
    c.Exact := by
  have key : ∀ (x : Str) {y : Str}, y ≠ [] → endsNl (x ++ y) = endsNl y := by
    intro x y hy
    simp only [endsNl]
    rw [List.getLast?_append, List.getLast?_eq_some_getLast hy]
    rfl
  unfold LNode.merge at h
  split at h
  · cases h; trivial
  · rename_i n o
    unfold LSource.mergeSource at h
    split at h
    · cases h
      show o.endsNl = endsNl (n.code ++ o.code)
      rw [key _ (y := o.code) hne]; exact hb
    · cases h
  · rename_i n o
    unfold LSource.mergeSingle at h
    split at h
    · cases h
      show o.endsNl = endsNl (n.code ++ o.code)
      rw [key _ (y := o.code) hne]; exact hb
    · cases h
  · rename_i n o
    unfold LSingle.mergeSingle at h
    split at h
    · split at h
      · cases h
        show o.endsNl = endsNl (n.code ++ o.code)
        rw [key _ (y := o.code) hne]; exact hb
      · split at h
        · cases h
          rfl
        · cases h
    · cases h
  · cases h

theorem mapLoop_lines {σ : Type _} (f : σ → Str → Str × σ) (g : Str → Str) (hf : ∀ st s, (f st s).1 = g s) :
    ∀ (ns : List LNode) (st : σ) (rev : List LNode), (∀ n ∈ ns, n.Plain) → (∀ n ∈ rev, n.Exact) →
    Aligned (rev.reverse.map LNode.text ++ (ns.map LNode.codeOf).map g) →
    LinesMap (mapLoop f st rev ns).1.reverse
  | [], st, rev, _, he, ha => by
    refine ⟨?_, by simpa [mapLoop] using ha⟩
    intro n hn
    exact he n (by simpa [mapLoop] using hn)
  | n :: ns, st, rev, hp, he, ha => by
    have key : ∃ n', n.mapCode f st = (some n', (f st n.codeOf).2) ∧ n'.text = g n.codeOf ∧ n'.Exact := by
      have hn := hp n (by simp)
      cases n with
      | code s => exact ⟨_, rfl, by simp [LNode.text, LNode.codeOf, hf], trivial⟩
      | single s => exact ⟨_, rfl, by simp [LNode.text, LNode.codeOf, LSingle.new, hf], rfl⟩
      | _ => exact hn.elim
    obtain ⟨n', e1, e2, e3⟩ := key
    rw [mapLoop, e1]
    dsimp only
    have ha' : Aligned (rev.reverse.map LNode.text ++ n'.text :: (ns.map LNode.codeOf).map g) := by
      rw [e2]; simpa using ha
    have hpush : (∀ k ∈ pushMerge rev (some n'), k.Exact) ∧
        Aligned ((pushMerge rev (some n')).reverse.map LNode.text ++ (ns.map LNode.codeOf).map g) := by
      unfold pushMerge
      cases rev with
      | nil => exact ⟨by intro k hk; rw [List.mem_singleton.1 hk]; exact e3, by simpa using ha'⟩
      | cons last rest =>
        have ha2 : Aligned (rest.reverse.map LNode.text ++ last.text :: n'.text :: (ns.map LNode.codeOf).map g) := by
          simpa using ha'
        dsimp only
        split
        · rename_i m hm
          have hne := ((ha2.of_append (by simp))).second.2
          refine ⟨?_, ?_⟩
          · intro k hk
            rcases List.mem_cons.1 hk with rfl | hk
            · exact merge_exact (he last (by simp)) e3 hne hm
            · exact he k (by simp [hk])
          · have := ha2.merge
            rw [← merge_text hm] at this
            simpa using this
        · refine ⟨?_, by simpa using ha2⟩
          intro k hk
          rcases List.mem_cons.1 hk with rfl | hk
          · exact e3
          · exact he k hk
    exact mapLoop_lines f g hf ns _ _ (fun k hk => hp k (by simp [hk])) hpush.1 hpush.2

theorem indent_last (p : Str) {s : Str} (h : s.getLast? = some '\n') : (indent p s).getLast? = some '\n' := by
  have : ∀ s : Str, s.getLast? = some '\n' → (indentRest p s).getLast? = some '\n' := by
    intro s
    induction s with
    | nil => intro h; cases h
    | cons c s ih =>
      intro h
      cases s with
      | nil => simpa [indentRest] using h
      | cons d s =>
        rw [List.getLast?_cons_cons] at h
        rw [indentRest, List.getLast?_cons, List.getLast?_append, ih h]
        rfl
  rw [indent, List.getLast?_append, this s h]
  rfl

theorem indent_ne (p : Str) {s : Str} (h : s ≠ []) : indent p s ≠ [] := by
  cases s with
  | nil => exact absurd rfl h
  | cons c s => simp [indent, indentRest]

theorem Aligned.indent (p : Str) : ∀ {cs : List Str}, Aligned cs → Aligned (cs.map (Spec.indent p))
  | [], h => h
  | [_], _ => trivial
  | c :: d :: cs, h => by
    have h' := h.second
    refine Aligned.cons (indent_last p h.1) ?_ (Aligned.indent p h.2.2)
    intro e
    simp only [List.map_cons, List.flatten_cons, List.append_eq_nil_iff] at e
    exact indent_ne p h'.2 e.1

theorem prefixListMap_lines (p : Str) {m : Slm} (h : LinesMap m) : LinesMap (prefixListMap p m) := by
  unfold prefixListMap slmMapGenerated
  dsimp only
  apply mapLoop_lines (prefixMap p) (Spec.indent p) (fun st s => by simp [prefixMap, makePrefixed_eq])
  · intro n hn
    obtain ⟨l, hl, hn⟩ := List.mem_flatten.1 hn
    obtain ⟨k, _, rfl⟩ := List.mem_map.1 hl
    exact normalized_plain n hn
  · intro n hn; cases hn
  · exact h.aligned.1.indent p

/-! ## Concatenating -/

theorem slmAddStr_lines {m : Slm} {s : Str} {ys : List Str} (he : ∀ n ∈ m, n.Exact)
    (ha : Aligned (m.map LNode.text ++ s :: ys)) :
    (∀ n ∈ slmAddStr m s none none, n.Exact) ∧ Aligned ((slmAddStr m s none none).map LNode.text ++ ys) := by
  unfold slmAddStr
  rw [if_neg (by simp)]
  split
  · rename_i c hc
    obtain ⟨m0, rfl⟩ : ∃ m0, m = m0 ++ [.code c] := List.getLast?_eq_some_iff.1 hc
    rw [List.dropLast_concat]
    refine ⟨?_, ?_⟩
    · intro n hn
      rcases List.mem_append.1 hn with hn | hn
      · exact he n (by simp [hn])
      · rw [List.mem_singleton.1 hn]; trivial
    · have : Aligned (m0.map LNode.text ++ c :: s :: ys) := by simpa [LNode.text] using ha
      simpa [LNode.text] using this.merge
  · refine ⟨?_, by simpa [LNode.text] using ha⟩
    intro n hn
    rcases List.mem_append.1 hn with hn | hn
    · exact he n hn
    · rw [List.mem_singleton.1 hn]; trivial

theorem concatMaps_lines : ∀ (xs : List (Str ⊕ Slm)) (m : Slm), (∀ n ∈ m, n.Exact) →
    (∀ l, Sum.inr l ∈ xs → LinesMap l) →
    Aligned (m.map LNode.text ++ xs.map itemText) → LinesMap (concatMaps m xs)
  | [], m, he, _, ha => ⟨he, by simpa [concatMaps] using ha⟩
  | .inl s :: xs, m, he, hx, ha => by
    rw [concatMaps]
    have := slmAddStr_lines (s := s) he ha
    exact concatMaps_lines xs _ this.1 (fun l hl => hx l (by simp [hl])) this.2
  | .inr l :: xs, m, he, hx, ha => by
    rw [concatMaps]
    have hl := hx l (by simp)
    have hfl : (l.map LNode.text).flatten = itemText (.inr l) := rfl
    refine concatMaps_lines xs _ ?_ (fun l hl => hx l (by simp [hl])) ?_
    · intro n hn
      rcases List.mem_append.1 hn with hn | hn
      · exact he n hn
      · exact hl.1 n hn
    · rw [List.map_append, List.append_assoc]
      refine ha.replace_tail (by simp) ?_ (by simp [hfl])
      have h' := ha.of_append (by simp)
      cases xs with
      | nil => simpa using hl.2
      | cons y ys =>
        rw [List.map_cons, List.map_cons] at h'
        exact hl.2.append h'.2.2 (by rw [hfl]; exact h'.1) h'.2.1

/-! ## Reading -/

/-- What is known of the reader while lines `ls` remain. -/
def LfLines (st : LfState) (ls : List Str) : Prop :=
  (∀ n ∈ st.rev, n.Exact) ∧ Aligned (st.rev.reverse.map LNode.text ++ ls)

theorem addCode_exact {n : LSource} {l : Str} (hl : l ≠ []) : (LNode.source (n.addCode l)).Exact := by
  show endsNl l = endsNl (n.code ++ l)
  simp only [endsNl]
  rw [List.getLast?_append, List.getLast?_eq_some_getLast hl]
  rfl

theorem LfLines.push {st : LfState} {l : Str} {ls : List Str} {k : LNode} (h : LfLines st (l :: ls))
    (hk : k.Exact) (ht : k.text = l) :
    (∀ n ∈ k :: st.rev, n.Exact) ∧ Aligned ((k :: st.rev).reverse.map LNode.text ++ ls) := by
  refine ⟨?_, by simpa [ht] using h.2⟩
  intro n hn
  rcases List.mem_cons.1 hn with rfl | hn
  · exact hk
  · exact h.1 n hn

theorem LfLines.merge {st : LfState} {l : Str} {ls : List Str} {a k : LNode} {rest : List LNode}
    (h : LfLines st (l :: ls)) (hr : st.rev = a :: rest) (hk : l ≠ [] → k.Exact) (ht : k.text = a.text ++ l) :
    (∀ n ∈ k :: rest, n.Exact) ∧ Aligned ((k :: rest).reverse.map LNode.text ++ ls) := by
  obtain ⟨h1, h2⟩ := h
  rw [hr] at h1 h2
  have h2 : Aligned (rest.reverse.map LNode.text ++ a.text :: l :: ls) := by simpa using h2
  refine ⟨?_, ?_⟩
  · intro n hn
    rcases List.mem_cons.1 hn with rfl | hn
    · exact hk (h2.of_append (by simp)).second.2
    · exact h1 n (by simp [hn])
  · have := h2.merge
    rw [← ht] at this
    simpa using this

theorem lfAddCode_lines {st : LfState} {l : Str} {ls : List Str} (h : LfLines st (l :: ls)) :
    LfLines (lfAddCode st l) ls := by
  unfold lfAddCode
  split
  · rename_i s rest hr
    exact h.merge hr (fun _ => trivial) rfl
  · rename_i n rest hr
    split
    · exact h.merge hr (fun hl => addCode_exact hl) rfl
    · exact h.push (k := .code l) trivial rfl
  · exact h.push (k := .code l) trivial rfl

theorem lfAddSource_lines {st : LfState} {l : Str} {ls : List Str} (h : LfLines st (l :: ls))
    (src orig : Option Int) (line : Nat) : LfLines (lfAddSource st l src orig line) ls := by
  unfold lfAddSource
  split
  · rename_i n rest hr
    split
    · exact h.merge hr (fun hl => addCode_exact hl) rfl
    · exact h.push (k := .source (LSource.new l src orig line)) rfl rfl
  · exact h.push (k := .source (LSource.new l src orig line)) rfl rfl

theorem lfSegments_lines {sources contents : List Int} {l : Str} {ls : List Str} : ∀ (fuel : Nat) (added : Bool)
    (st : LfState) (s : Str) {a : Bool} {st' : LfState},
    lfSegments sources contents l fuel added st s = .ok (a, st') →
    LfLines st (if added then ls else l :: ls) → LfLines st' (if a then ls else l :: ls)
  | fuel, added, st, [], a, st', h, hl => by
    rw [lfSegments_nil] at h; cases h; exact hl
  | 0, added, st, c :: cs, a, st', h, _ => by cases h
  | fuel + 1, added, st, c :: cs, a, st', h, hl => by
    rw [lfSegments] at h
    split at h
    · cases h
    · rename_i r a1 st1 e
      refine lfSegments_lines fuel _ _ _ h ?_
      rcases lfSegment_rev e with ⟨h1, h2, _⟩ | ⟨h1, h2, st0, h3, _, _, _, h4⟩
      · unfold LfLines at hl ⊢
        rw [h1, h2]; exact hl
      · rw [h1] at hl
        rw [h2, h4]
        refine lfAddSource_lines ?_ _ _ _
        unfold LfLines at hl ⊢
        rw [h3]; exact hl

theorem lfLine_lines {sources contents : List Int} {st st' : LfState} {l : Str} {ls : List Str} {mp : Str}
    (h : lfLine sources contents st l mp = .ok st') (hl : LfLines st (l :: ls)) : LfLines st' ls := by
  unfold lfLine at h
  split at h
  · cases h; exact lfAddCode_lines hl
  · split at h
    · cases h
    · rename_i a st1 e
      have := lfSegments_lines (ls := ls) _ _ _ _ e hl
      cases h
      split
      · rename_i ha; rw [ha] at this; exact this
      · rename_i ha
        rw [if_neg ha] at this
        exact lfAddCode_lines this

theorem lfLines_lines {sources contents : List Int} : ∀ (ms : List Str) (st : LfState) (ls : List Str)
    {st' : LfState} {rest : List Str}, lfLines sources contents st ls ms = .ok (st', rest) →
    LfLines st ls → LfLines st' rest
  | [], st, ls, st', rest, h, hl => by
    have : lfLines sources contents st ls [] = .ok (st, ls) := by cases ls <;> rfl
    rw [this] at h; cases h; exact hl
  | m :: ms, st, [], st', rest, h, hl => by
    rw [lfLines] at h
    exact lfLines_lines ms st [] h hl
  | m :: ms, st, l :: ls, st', rest, h, hl => by
    rw [lfLines] at h
    split at h
    · cases h
    · rename_i st1 e
      exact lfLines_lines ms st1 ls h (lfLine_lines e hl)

theorem lfRest_lines : ∀ (ls : List Str) (st : LfState), LfLines st ls → LfLines (lfRest st ls) []
  | [], st, h => h
  | l :: ls, st, h => by
    rw [lfRest]
    split
    · exact lfRest_lines ls _ (lfAddCode_lines h)
    · exact lfAddCode_lines ⟨h.1, h.2.collapse⟩

theorem splitKeep_aligned {v : Str} (h : v.getLast? ≠ some '\n') : Aligned (splitKeep '\n' v) := by
  induction v using piece_induction (p := '\n') with
  | base s hs => rw [splitKeep_of_not_mem hs]; trivial
  | step a b ha ih =>
    rw [splitKeep_append_sep ha]
    by_cases hb : b = []
    · subst hb; simp at h
    · refine Aligned.cons (by simp) (by rw [splitKeep_flatten]; exact hb) (ih ?_)
      rw [List.getLast?_append, List.getLast?_cons, List.getLast?_eq_some_getLast hb] at h
      rw [List.getLast?_eq_some_getLast hb]
      simpa using h

/-- A text that does not end with a newline is read into nodes of whole lines. -/
theorem slmFromString_lines {code : Str} {sources contents : List Int} {mappings : Str} {m : Slm}
    (hc : code.getLast? ≠ some '\n') (h : slmFromString code sources contents mappings = .ok m) : LinesMap m := by
  unfold slmFromString at h
  split at h
  · cases h
  · rename_i st rest e
    cases h
    have := lfRest_lines rest st (lfLines_lines _ _ _ e ⟨(by intro n hn; cases hn), by
      simpa using splitKeep_aligned hc⟩)
    refine ⟨fun n hn => this.1 n (by simpa using hn), by simpa using this.2⟩

/-- One text. -/
theorem slmNewStr_lines (s : Str) (src orig : Option Int) : LinesMap (slmNewStr s src orig) := by
  unfold slmNewStr slmAddStr
  split
  · exact ⟨by intro n hn; rw [List.mem_singleton.1 hn]; rfl, trivial⟩
  · exact ⟨by intro n hn; rw [List.mem_singleton.1 hn]; trivial, trivial⟩

end WS
