import Verif.Proofs.Wasm32
import Verif.Proofs.Render
/-! # List maps in 32-bit arithmetic -/

namespace WS
open Spec

/-- No line of the node is beyond `B`, except that a run of lines may name the one after. -/
def LNode.Low (B : Nat) : LNode → Prop
  | .source n => n.numLines = n.code.count '\n' ∧ n.startLine + n.numLines ≤ B + 1
  | .single n => n.numLines = n.code.count '\n' ∧ n.line ≤ B
  | _ => True

/-- All nodes of a list map. -/
def SlmLow (B : Nat) (m : Slm) : Prop := ∀ n ∈ m, n.Low B

theorem LNode.Low.mono {B C : Nat} (hB : B ≤ C) {n : LNode} (h : n.Low B) : n.Low C := by
  cases n with
  | source n => exact ⟨h.1, Nat.le_trans h.2 (by omega)⟩
  | single n => exact ⟨h.1, Nat.le_trans h.2 hB⟩
  | _ => trivial

theorem SlmLow.mono {B C : Nat} (hB : B ≤ C) {m : Slm} (h : SlmLow B m) : SlmLow C m :=
  fun n hn => (h n hn).mono hB

theorem SlmLow.append {B : Nat} {a b : Slm} (ha : SlmLow B a) (hb : SlmLow B b) : SlmLow B (a ++ b) :=
  fun n hn => (List.mem_append.1 hn).elim (ha n) (hb n)

theorem SlmLow.nil {B : Nat} : SlmLow B [] := fun n hn => by cases hn

/-! ## Rewriting -/

theorem merge_low {B : Nat} (hB : B + 1 < 4294967296) {a b : LNode} (ha : a.Low B) (hb : b.Low B) :
    a.merge32 b = a.merge b ∧ ∀ c, a.merge b = some c → c.Low B := by
  cases a with
  | code a =>
    cases b with
    | code b => exact ⟨rfl, fun c hc => by cases hc; trivial⟩
    | _ => exact ⟨rfl, fun c hc => by cases hc⟩
  | source n =>
    obtain ⟨a1, a2⟩ := ha
    cases b with
    | source o =>
      obtain ⟨b1, b2⟩ := hb
      have e : n.mergeSource32 o = n.mergeSource o := by
        unfold LSource.mergeSource32 LSource.mergeSource
        rw [usize32_id (by omega : n.startLine + n.numLines < 4294967296)]
      refine ⟨congrArg (Option.map LNode.source) e, fun c hc => ?_⟩
      simp only [LNode.merge, LSource.mergeSource, Option.map_eq_some_iff] at hc
      obtain ⟨x, hx, rfl⟩ := hc
      split at hx
      · rename_i hc
        cases hx
        refine ⟨?_, ?_⟩
        · dsimp only; rw [List.count_append, a1, b1]
        · dsimp only; omega
      · cases hx
    | single o =>
      obtain ⟨b1, b2⟩ := hb
      have e : n.mergeSingle32 o = n.mergeSingle o := by
        unfold LSource.mergeSingle32 LSource.mergeSingle
        rw [usize32_id (by omega : n.startLine + n.numLines < 4294967296)]
      refine ⟨congrArg (Option.map LNode.source) e, fun c hc => ?_⟩
      simp only [LNode.merge, LSource.mergeSingle, Option.map_eq_some_iff] at hc
      obtain ⟨x, hx, rfl⟩ := hc
      split at hx
      · rename_i hc
        cases hx
        refine ⟨?_, ?_⟩
        · dsimp only; rw [List.count_append, a1, b1]
        · dsimp only; omega
      · cases hx
    | _ => exact ⟨rfl, fun c hc => by cases hc⟩
  | single n =>
    obtain ⟨a1, a2⟩ := ha
    cases b with
    | single o =>
      obtain ⟨b1, b2⟩ := hb
      have e : n.mergeSingle32 o = n.mergeSingle o := by
        unfold LSingle.mergeSingle32 LSingle.mergeSingle
        rw [usize32_id (by omega : n.line + 1 < 4294967296)]
      refine ⟨e, fun c hc => ?_⟩
      simp only [LNode.merge, LSingle.mergeSingle] at hc
      split at hc
      · split at hc
        · cases hc
          refine ⟨?_, a2⟩
          dsimp only; rw [List.count_append, a1, b1]
        · split at hc
          · rename_i h3
            cases hc
            refine ⟨rfl, ?_⟩
            simp only [LSource.new, numberOfLines]
            rw [List.count_append]
            omega
          · cases hc
      · cases hc
    | _ => exact ⟨rfl, fun c hc => by cases hc⟩
  | _ => exact ⟨by cases b <;> rfl, fun c hc => by cases b <;> cases hc⟩

theorem pushMerge_low {B : Nat} (hB : B + 1 < 4294967296) {rev : List LNode} (hr : SlmLow B rev) {n : LNode}
    (hn : n.Low B) : pushMerge32 rev (some n) = pushMerge rev (some n) ∧ SlmLow B (pushMerge rev (some n)) := by
  cases rev with
  | nil => exact ⟨rfl, fun k hk => by rw [List.mem_singleton.1 hk]; exact hn⟩
  | cons a rest =>
    obtain ⟨m1, m2⟩ := merge_low hB (hr a (List.mem_cons_self ..)) hn
    unfold pushMerge32 pushMerge
    dsimp only
    rw [m1]
    cases hm : a.merge n with
    | none =>
      refine ⟨rfl, fun k hk => ?_⟩
      rcases List.mem_cons.1 hk with rfl | hk
      · exact hn
      · exact hr k hk
    | some c =>
      refine ⟨rfl, fun k hk => ?_⟩
      rcases List.mem_cons.1 hk with rfl | hk
      · exact m2 k hm
      · exact hr k (List.mem_cons_of_mem _ hk)

theorem normLines_low {B : Nat} (hB : B + 1 < 4294967296) (src orig : Option Int) (e : Bool) :
    ∀ (ls : List Str) (cur : Nat), cur + (ls.length - 1) ≤ B + 1 →
    normLines32 src orig e cur ls = normLines src orig e cur ls ∧ SlmLow (B + 1) (normLines src orig e cur ls)
  | [], _, _ => ⟨rfl, SlmLow.nil⟩
  | [l], cur, h => by
    simp only [List.length_singleton] at h
    refine ⟨rfl, ?_⟩
    rw [normLines]
    split
    · exact SlmLow.nil
    · intro k hk
      rw [List.mem_singleton.1 hk]
      exact ⟨rfl, by dsimp only [LSingle.new]; omega⟩
  | l :: l' :: ls, cur, h => by
    simp only [List.length_cons] at h
    obtain ⟨h1, h2⟩ := normLines_low hB src orig e (l' :: ls) (cur + 1) (by simp only [List.length_cons]; omega)
    rw [normLines32, normLines, usize32_id (by omega), h1]
    · refine ⟨rfl, fun k hk => ?_⟩
      rcases List.mem_cons.1 hk with rfl | hk
      · exact ⟨rfl, by dsimp only [LSingle.new]; omega⟩
      · exact h2 k hk
    · exact fun h => by cases h
    · exact fun h => by cases h

theorem splitKeep_count (v : Str) : (splitKeep '\n' v).length = v.count '\n' + 1 := by
  induction v using piece_induction (p := '\n') with
  | base s hs => rw [splitKeep_of_not_mem hs, List.count_eq_zero.2 hs]; rfl
  | step x r hx ih =>
    rw [splitKeep_append_sep hx, List.length_cons, ih, List.count_append, List.count_eq_zero.2 hx,
      List.count_cons_self]
    omega

theorem normalized_low {B : Nat} (hB : B + 1 < 4294967296) {n : LNode} (h : n.Low B) :
    n.normalized32 = n.normalized ∧ SlmLow (B + 1) n.normalized := by
  cases n with
  | source n =>
    obtain ⟨h1, h2⟩ := h
    refine normLines_low hB _ _ _ _ _ ?_
    rw [splitKeep_count]
    omega
  | code s => exact ⟨rfl, fun k hk => by rw [List.mem_singleton.1 hk]; trivial⟩
  | single s => exact ⟨rfl, fun k hk => by rw [List.mem_singleton.1 hk]; exact h.mono (by omega)⟩
  | _ => exact ⟨rfl, SlmLow.nil⟩

theorem mapLoop_low {σ : Type _} {f g : σ → Str → Str × σ} {B : Nat} (hB : B + 1 < 4294967296)
    (I : σ → List Str → Prop)
    (step : ∀ st c cs, I st (c :: cs) → f st c = g st c ∧ I (g st c).2 cs) :
    ∀ (ns : List LNode) (st : σ) (rev : List LNode), I st (ns.map LNode.codeOf) → (∀ n ∈ ns, n.Plain) →
    SlmLow B ns → SlmLow B rev →
    mapLoop32 f st rev ns = mapLoop g st rev ns ∧ SlmLow B (mapLoop g st rev ns).1
  | [], st, rev, _, _, _, hr => ⟨rfl, hr⟩
  | n :: ns, st, rev, hi, hp, hn, hr => by
    obtain ⟨s1, s2⟩ := step _ _ _ hi
    have h0 := hn n (List.mem_cons_self ..)
    have hpl := hp n (List.mem_cons_self ..)
    have ih := fun rev hr => mapLoop_low hB I step ns (g st n.codeOf).2 rev s2
      (fun k hk => hp k (List.mem_cons_of_mem _ hk)) (fun k hk => hn k (List.mem_cons_of_mem _ hk)) hr
    cases n with
    | code s =>
      simp only [LNode.codeOf] at s1 ih
      obtain ⟨p1, p2⟩ := pushMerge_low hB hr (n := .code (g st s).1) trivial
      rw [mapLoop32, mapLoop]
      simp only [LNode.mapCode, s1, p1]
      exact ih _ p2
    | single s =>
      simp only [LNode.codeOf] at s1 ih
      obtain ⟨p1, p2⟩ := pushMerge_low hB hr
        (n := .single (LSingle.new (g st s.code).1 s.source s.original s.line)) ⟨rfl, h0.2⟩
      rw [mapLoop32, mapLoop]
      simp only [LNode.mapCode, s1, p1]
      exact ih _ p2
    | _ => exact hpl.elim

theorem normalizedAll_low {B : Nat} (hB : B + 1 < 4294967296) : ∀ {m : Slm}, SlmLow B m →
    m.map LNode.normalized32 = m.map LNode.normalized ∧ SlmLow (B + 1) (m.map LNode.normalized).flatten
  | [], _ => ⟨rfl, SlmLow.nil⟩
  | n :: m, h => by
    obtain ⟨a1, a2⟩ := normalized_low hB (h n (List.mem_cons_self ..))
    obtain ⟨b1, b2⟩ := normalizedAll_low hB (m := m) fun k hk => h k (List.mem_cons_of_mem _ hk)
    simp only [List.map_cons, List.flatten_cons, a1, b1]
    exact ⟨trivial, a2.append b2⟩

/-- Rewriting a list map, where the rewriting function agrees with its 32-bit version. -/
theorem mapGenerated_low {σ : Type _} {f g : σ → Str → Str × σ} {B : Nat} (hB : B + 2 < 4294967296)
    (I : σ → List Str → Prop)
    (step : ∀ st c cs, I st (c :: cs) → f st c = g st c ∧ I (g st c).2 cs) {m : Slm} {st : σ}
    (hi : I st (normCodes m)) (h : SlmLow B m) :
    slmMapGenerated32 f st m = slmMapGenerated g st m ∧ SlmLow (B + 1) (slmMapGenerated g st m).1 := by
  obtain ⟨n1, n2⟩ := normalizedAll_low (by omega : B + 1 < 4294967296) h
  have hp : ∀ n ∈ (m.map LNode.normalized).flatten, n.Plain := by
    intro n hn
    obtain ⟨l, hl, hn⟩ := List.mem_flatten.1 hn
    obtain ⟨k, _, rfl⟩ := List.mem_map.1 hl
    exact normalized_plain n hn
  obtain ⟨l1, l2⟩ := mapLoop_low (by omega : B + 1 + 1 < 4294967296) I step _ st [] hi hp n2 SlmLow.nil
  unfold slmMapGenerated32 slmMapGenerated
  rw [n1, l1]
  exact ⟨rfl, fun k hk => l2 k (List.mem_reverse.1 hk)⟩

theorem prefixListMap_low {B : Nat} (hB : B + 2 < 4294967296) (pre : Str) {m : Slm} (h : SlmLow B m) :
    prefixListMap32 pre m = prefixListMap pre m ∧ SlmLow (B + 1) (prefixListMap pre m) := by
  obtain ⟨h1, h2⟩ := mapGenerated_low (f := prefixMap pre) (g := prefixMap pre) hB (fun _ _ => True)
    (fun _ _ _ _ => ⟨rfl, trivial⟩) (st := ()) trivial h
  unfold prefixListMap32 prefixListMap
  rw [h1]
  exact ⟨rfl, h2⟩

theorem normLines_size (src orig : Option Int) (e : Bool) : ∀ (ls : List Str) (cur : Nat),
    (((normLines src orig e cur ls).map LNode.codeOf).flatten).length ≤ ls.flatten.length
  | [], _ => by simp [normLines]
  | [l], cur => by
    rw [normLines]
    split
    · simp
    · simp [LNode.codeOf, LSingle.new]
  | l :: l' :: ls, cur => by
    have ih := normLines_size src orig e (l' :: ls) (cur + 1)
    rw [normLines]
    · simp only [List.map_cons, List.flatten_cons, List.length_append, LNode.codeOf, LSingle.new] at ih ⊢
      omega
    · exact fun h => by cases h

theorem normCodes_size : ∀ (m : Slm), ((normCodes m).flatten).length ≤ (slmText m).length
  | [] => by simp [normCodes, slmText]
  | n :: m => by
    have ih := normCodes_size m
    have h : ((n.normalized.map LNode.codeOf).flatten).length ≤ n.text.length := by
      cases n with
      | source n =>
        have := normLines_size n.source n.original n.endsNl (splitKeep '\n' n.code) n.startLine
        rw [splitKeep_flatten] at this
        exact this
      | code s => simp [LNode.normalized, LNode.codeOf, LNode.text]
      | single s => simp [LNode.normalized, LNode.codeOf, LNode.text]
      | _ => simp [LNode.normalized]
    simp only [normCodes, slmText, List.map_cons, List.flatten_cons, List.map_append, List.flatten_append,
      List.length_append] at ih ⊢
    omega

theorem slmAddStr_low {B : Nat} {m : Slm} (h : SlmLow B m) (s : Str) : SlmLow B (slmAddStr m s none none) := by
  have push : ∀ c : Str, SlmLow B (m ++ [.code c]) := fun c =>
    h.append fun k hk => by rw [List.mem_singleton.1 hk]; trivial
  unfold slmAddStr
  simp only [Option.isSome_none, Bool.false_eq_true, if_false]
  split
  · refine SlmLow.append (fun k hk => h k ((List.dropLast_sublist m).mem hk)) fun k hk => ?_
    rw [List.mem_singleton.1 hk]; trivial
  · exact push s

theorem replaceListMap_low {B : Nat} (hB : B + 2 < 4294967296) {rs : List Repl} (hr : ∀ r ∈ rs, r.Near) {m : Slm}
    (h : SlmLow B m) (hs : (slmText m).length ≤ 1073741824) :
    replaceListMap32 m rs = replaceListMap m rs ∧ SlmLow (B + 1) (replaceListMap m rs) := by
  obtain ⟨h1, h2⟩ := mapGenerated_low (f := rmMap32) (g := rmMap) hB
    (fun st cs => st.Fits cs.flatten.length)
    (fun st c cs hi => by
      rw [List.flatten_cons, List.length_append] at hi
      exact rmMap32_eq hi)
    (st := { cur := 0, pending := rs.reverse, remove := 0 })
    ⟨by dsimp only; omega, by have := normCodes_size m; dsimp only; omega, fun r hm => hr r (List.mem_reverse.1 hm)⟩ h
  unfold replaceListMap32 replaceListMap
  rw [h1]
  refine ⟨rfl, ?_⟩
  dsimp only
  split
  · exact h2
  · exact slmAddStr_low h2 _

theorem slmNewStr_low {B : Nat} {s : Str} {src orig : Option Int} (h : s.count '\n' ≤ B) :
    SlmLow B (slmNewStr s src orig) := by
  unfold slmNewStr slmAddStr
  split
  · intro k hk
    rw [List.nil_append, List.mem_singleton] at hk
    subst hk
    exact ⟨rfl, by simp only [LSource.new, numberOfLines]; omega⟩
  · intro k hk
    simp only [List.getLast?_nil, List.nil_append, List.mem_singleton] at hk
    subst hk
    trivial

theorem concatMaps_low {B : Nat} : ∀ {xs : List (Str ⊕ Slm)} {m : Slm}, SlmLow B m →
    (∀ x ∈ xs, ∀ c, x = .inr c → SlmLow B c) → SlmLow B (concatMaps m xs)
  | [], _, h, _ => h
  | .inl s :: xs, m, h, hx => by
    rw [concatMaps]
    exact concatMaps_low (slmAddStr_low h s) fun x hm => hx x (List.mem_cons_of_mem _ hm)
  | .inr c :: xs, m, h, hx => by
    rw [concatMaps]
    exact concatMaps_low (h.append (hx _ (List.mem_cons_self ..) c rfl)) fun x hm => hx x (List.mem_cons_of_mem _ hm)

/-! ## The emitted map -/

theorem LSource.mappings_low {B : Nat} (hB : B + 1 < 4294967296) (c : MapCtx) {n : LSource}
    (h : (LNode.source n).Low B) : n.mappings32 c = n.mappings c := by
  obtain ⟨h1, h2⟩ := h
  unfold LSource.mappings32 LSource.mappings
  split
  · rfl
  · rename_i he
    have hne : n.code ≠ [] := by simpa using he
    dsimp only
    rw [usize32_id (by omega : n.startLine + n.numLines < 4294967296)]
    have e : (if unfinishedLines n.code = 0 then toUsize (((n.startLine + n.numLines : Nat) : Int) - 1)
        else usize32 (toUsize (((n.startLine + n.numLines : Nat) : Int) - 1) + 1)) =
        if unfinishedLines n.code = 0 then n.startLine + n.numLines - 1 else n.startLine + n.numLines := by
      by_cases hu : unfinishedLines n.code = 0
      · rw [if_pos hu, if_pos hu]
        have := numberOfLines_pos_of_finished hne hu
        unfold numberOfLines at this
        unfold toUsize; omega
      · rw [if_neg hu, if_neg hu]
        unfold usize32 toUsize; omega
    rw [e]

theorem slmMappings_low {B : Nat} (hB : B + 1 < 4294967296) : ∀ {m : Slm} (c : MapCtx), SlmLow B m →
    slmMappings32 c m = slmMappings c m
  | [], c, _ => rfl
  | n :: m, c, h => by
    have e : n.mappings32 c = n.mappings c := by
      cases n with
      | source n => exact LSource.mappings_low hB c (h _ (List.mem_cons_self ..))
      | _ => rfl
    rw [slmMappings32, slmMappings, e]
    dsimp only
    rw [slmMappings_low hB _ fun k hk => h k (List.mem_cons_of_mem _ hk)]

theorem slmToString_low {B : Nat} (hB : B + 1 < 4294967296) {m : Slm} (h : SlmLow B m) (file : Option Int) :
    slmToStringWithSourceMap32 m file = slmToStringWithSourceMap m file := by
  unfold slmToStringWithSourceMap32 slmToStringWithSourceMap
  rw [slmMappings_low hB _ h]

end WS
