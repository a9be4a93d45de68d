import Verif.Props.C13
import Verif.Props.C41
import Verif.Props.C20
import Verif.Proofs.Overlap
import Verif.Proofs.Unfold
/-! # The text of list maps of trees -/

namespace WS
open Spec

/-! ## Rewriting piece by piece -/

/-- The pieces of code that `map_generated_code` hands to its function, in order. -/
def normCodes (m : Slm) : List Str := (m.map LNode.normalized).flatten.map LNode.codeOf

/-- A function with a state, applied to one piece after the other. -/
def runCodes {σ : Type _} (f : σ → Str → Str × σ) : σ → List Str → Str × σ
  | st, [] => ([], st)
  | st, c :: cs => ((f st c).1 ++ (runCodes f (f st c).2 cs).1, (runCodes f (f st c).2 cs).2)

theorem LNode.Built.merged {n : LNode} (h : n.Built fun _ => True) : n.Merged := by
  have hl := C42_lines h
  have he := C42_ends_partial h
  have hk : (∃ s, n = .code s) ∨ (∃ s, n = .source s) ∨ (∃ s, n = .single s) := by
    cases h with
    | code s => exact .inl ⟨_, rfl⟩
    | source => exact .inr (.inl ⟨_, rfl⟩)
    | single => exact .inr (.inr ⟨_, rfl⟩)
    | add => exact .inr (.inl ⟨_, rfl⟩)
    | @merge a b c ha hb hp h =>
      unfold LNode.merge at h
      split at h
      · cases h; exact .inl ⟨_, rfl⟩
      · cases hm : LSource.mergeSource _ _ with
        | none => rw [hm] at h; cases h
        | some x => rw [hm] at h; cases h; exact .inr (.inl ⟨_, rfl⟩)
      · cases hm : LSource.mergeSingle _ _ with
        | none => rw [hm] at h; cases h
        | some x => rw [hm] at h; cases h; exact .inr (.inl ⟨_, rfl⟩)
      · unfold LSingle.mergeSingle at h
        split at h
        · split at h
          · cases h; exact .inr (.inr ⟨_, rfl⟩)
          · split at h
            · cases h; exact .inr (.inl ⟨_, rfl⟩)
            · cases h
        · cases h
      · cases h
    | @mapped σ f s s' a b ha h =>
      cases a with
      | code c => simp only [LNode.mapCode, Prod.mk.injEq, Option.some.injEq] at h; rw [← h.1]; exact .inl ⟨_, rfl⟩
      | single n =>
        simp only [LNode.mapCode, Prod.mk.injEq, Option.some.injEq] at h
        rw [← h.1]
        exact .inr (.inr ⟨_, rfl⟩)
      | _ => simp [LNode.mapCode] at h
    | @line a b ha h =>
      cases a with
      | code c => rw [List.mem_singleton.1 h]; exact .inl ⟨_, rfl⟩
      | single n => rw [List.mem_singleton.1 h]; exact .inr (.inr ⟨_, rfl⟩)
      | source n =>
        obtain ⟨l, k, rfl, _⟩ := normLines_mem h
        exact .inr (.inr ⟨_, rfl⟩)
      | _ => simp [LNode.normalized] at h
  rcases hk with ⟨s, rfl⟩ | ⟨s, rfl⟩ | ⟨s, rfl⟩
  · trivial
  · exact ⟨hl, he⟩
  · exact ⟨hl, he⟩

/-- A code or single-line node. -/
def LNode.Plain : LNode → Prop
  | .code _ => True
  | .single _ => True
  | _ => False

theorem normLines_codes (src orig : Option Int) (e : Bool) : ∀ (v : Str) (cur : Nat),
    (e = true → v = [] ∨ v.getLast? = some '\n') →
    ((normLines src orig e cur (splitKeep '\n' v)).map LNode.codeOf).flatten = v := by
  intro v
  induction v using piece_induction (p := '\n') with
  | base s hs =>
    intro cur he
    rw [splitKeep_of_not_mem hs, normLines]
    split
    · rename_i h
      rcases he h with rfl | h
      · rfl
      · exact absurd (List.mem_of_getLast? h) hs
    · simp [LNode.codeOf, LSingle.new]
  | step a b ha ih =>
    intro cur he
    rw [splitKeep_append_sep ha]
    obtain ⟨x, xs, hx⟩ : ∃ x xs, splitKeep '\n' b = x :: xs := by
      cases h : splitKeep '\n' b with
      | nil => exact absurd h (splitKeep_ne_nil _ _)
      | cons x xs => exact ⟨x, xs, rfl⟩
    have hn : normLines src orig e cur ((a ++ ['\n']) :: splitKeep '\n' b) =
        .single (LSingle.new (a ++ ['\n']) src orig cur) :: normLines src orig e (cur + 1) (splitKeep '\n' b) := by
      rw [hx, normLines]; simp
    have he' : e = true → b = [] ∨ b.getLast? = some '\n' := by
      intro h
      by_cases hb : b = []
      · exact .inl hb
      · right
        have := (he h).resolve_left (by simp)
        rw [List.getLast?_append, List.getLast?_cons, List.getLast?_eq_some_getLast hb] at this
        rw [List.getLast?_eq_some_getLast hb]
        simpa using this
    rw [hn, List.map_cons, List.flatten_cons, ih (cur + 1) he']
    simp [LNode.codeOf, LSingle.new]

theorem normalized_plain {n : LNode} : ∀ k ∈ n.normalized, k.Plain := by
  intro k hk
  cases n with
  | code s => rw [List.mem_singleton.1 hk]; trivial
  | single s => rw [List.mem_singleton.1 hk]; trivial
  | source n => obtain ⟨l, j, rfl, _⟩ := normLines_mem hk; trivial
  | _ => cases hk

theorem normalized_codes {n : LNode} (h : n.Merged) : (n.normalized.map LNode.codeOf).flatten = n.text := by
  cases n with
  | code s => simp [LNode.normalized, LNode.codeOf, LNode.text]
  | single s => simp [LNode.normalized, LNode.codeOf, LNode.text]
  | source n =>
    rw [LNode.text]
    exact normLines_codes _ _ _ _ _ (fun e => .inr (h.2 e))
  | _ => exact h.elim

theorem normCodes_flatten : ∀ {m : Slm}, (∀ n ∈ m, n.Merged) → (normCodes m).flatten = slmText m
  | [], _ => rfl
  | n :: m, h => by
    have ih := normCodes_flatten (m := m) (fun k hk => h k (by simp [hk]))
    simp only [normCodes, slmText, List.map_cons, List.flatten_cons, List.map_append, List.flatten_append] at ih ⊢
    rw [ih, normalized_codes (h n (by simp))]

theorem merge_text {a b c : LNode} (h : a.merge b = some c) : c.text = a.text ++ b.text := by
  unfold LNode.merge at h
  split at h
  · cases h; simp [LNode.text]
  · rename_i n o
    unfold LSource.mergeSource at h
    split at h
    · cases h; simp [LNode.text]
    · cases h
  · rename_i n o
    unfold LSource.mergeSingle at h
    split at h
    · cases h; simp [LNode.text]
    · cases h
  · rename_i n o
    unfold LSingle.mergeSingle at h
    split at h
    · split at h
      · cases h; simp [LNode.text]
      · split at h
        · cases h; simp [LNode.text, LSource.new]
        · cases h
    · cases h
  · cases h

theorem pushMerge_text (rev : List LNode) (n : LNode) :
    slmText (pushMerge rev (some n)).reverse = slmText rev.reverse ++ n.text := by
  unfold pushMerge
  cases rev with
  | nil => simp [slmText]
  | cons last rest =>
    dsimp only
    split
    · rename_i m hm; simp [slmText, merge_text hm]
    · simp [slmText]

theorem mapLoop_text {σ : Type _} (f : σ → Str → Str × σ) : ∀ (ns : List LNode) (st : σ) (rev : List LNode),
    (∀ n ∈ ns, n.Plain) →
    slmText (mapLoop f st rev ns).1.reverse = slmText rev.reverse ++ (runCodes f st (ns.map LNode.codeOf)).1 ∧
    (mapLoop f st rev ns).2 = (runCodes f st (ns.map LNode.codeOf)).2
  | [], st, rev, _ => by simp [mapLoop, runCodes]
  | n :: ns, st, rev, h => by
    have hn := h n (by simp)
    have key : ∃ n', n.mapCode f st = (some n', (f st n.codeOf).2) ∧ n'.text = (f st n.codeOf).1 := by
      cases n with
      | code s => exact ⟨_, rfl, by simp [LNode.text, LNode.codeOf]⟩
      | single s => exact ⟨_, rfl, by simp [LNode.text, LNode.codeOf, LSingle.new]⟩
      | _ => exact hn.elim
    obtain ⟨n', e1, e2⟩ := key
    rw [mapLoop, e1]
    obtain ⟨h1, h2⟩ := mapLoop_text f ns (f st n.codeOf).2 (pushMerge rev (some n')) (fun k hk => h k (by simp [hk]))
    dsimp only
    rw [h1, h2, pushMerge_text, e2]
    simp [runCodes]

/-- The text of a rewritten list map and the state left. -/
theorem mapGenerated_text {σ : Type _} (f : σ → Str → Str × σ) (st : σ) (m : Slm) :
    slmText (slmMapGenerated f st m).1 = (runCodes f st (normCodes m)).1 ∧
    (slmMapGenerated f st m).2 = (runCodes f st (normCodes m)).2 := by
  have hp : ∀ n ∈ (m.map LNode.normalized).flatten, n.Plain := by
    intro n hn
    obtain ⟨l, hl, hn⟩ := List.mem_flatten.1 hn
    obtain ⟨k, _, rfl⟩ := List.mem_map.1 hl
    exact normalized_plain n hn
  obtain ⟨h1, h2⟩ := mapLoop_text f _ st [] hp
  unfold slmMapGenerated
  dsimp only
  rw [h1, h2]
  exact ⟨by simp [slmText, normCodes], rfl⟩

/-! ## Prefixing -/

/-- The pieces are lines of the text they make up: every piece but the last ends with a newline, and
only a sole piece may be empty. -/
def Aligned : List Str → Prop
  | [] => False
  | [_] => True
  | c :: cs => c.getLast? = some '\n' ∧ cs.flatten ≠ [] ∧ Aligned cs

theorem indentRest_append_nl (p : Str) : ∀ (a b : Str), a.getLast? = some '\n' → b ≠ [] →
    indentRest p (a ++ b) = indentRest p a ++ p ++ indentRest p b
  | [], b, h, _ => by cases h
  | [c], b, h, hb => by
    simp only [List.getLast?_singleton, Option.some.injEq] at h
    subst h
    simp [indentRest, hb]
  | c :: d :: a, b, h, hb => by
    rw [List.getLast?_cons_cons] at h
    have := indentRest_append_nl p (d :: a) b h hb
    rw [List.cons_append, indentRest, this]
    conv => rhs; rw [indentRest]
    simp

theorem aligned_indent (p : Str) : ∀ (cs : List Str), p = [] ∨ Aligned cs →
    (cs.map (indent p)).flatten = indent p cs.flatten
  | [], h => by
    rcases h with rfl | h
    · rfl
    · exact h.elim
  | [c], _ => by simp
  | c :: d :: cs, h => by
    have ih := aligned_indent p (d :: cs) (by
      rcases h with h | h
      · exact .inl h
      · exact .inr h.2.2)
    rw [List.map_cons, List.flatten_cons, ih, List.flatten_cons (l := c)]
    rcases h with rfl | ⟨h1, h2, _⟩
    · have : ∀ s : Str, indentRest [] s = s := by
        intro s; induction s with
        | nil => rfl
        | cons c s ih => simp [indentRest, ih]
      simp [indent, this]
    · simp only [indent]
      rw [indentRest_append_nl p _ _ h1 h2]
      simp

theorem Aligned.cons {c : Str} {cs : List Str} (hc : c.getLast? = some '\n') (hn : cs.flatten ≠ [])
    (h : Aligned cs) : Aligned (c :: cs) := by
  cases cs with
  | nil => exact h.elim
  | cons d cs => exact ⟨hc, hn, h⟩

theorem normLines_aligned (src orig : Option Int) : ∀ (v : Str) (cur : Nat),
    Aligned ((normLines src orig (endsNl v) cur (splitKeep '\n' v)).map LNode.codeOf) := by
  intro v
  induction v using piece_induction (p := '\n') with
  | base s hs =>
    intro cur
    have : endsNl s = false := by
      rw [Bool.eq_false_iff]
      intro h
      exact hs (List.mem_of_getLast? ((endsNl_iff s).1 h))
    rw [splitKeep_of_not_mem hs, this]
    trivial
  | step a b ha ih =>
    intro cur
    rw [splitKeep_append_sep ha]
    by_cases hb : b = []
    · subst hb
      have : endsNl (a ++ ['\n']) = true := by simp [endsNl]
      rw [this]
      trivial
    · have he : endsNl (a ++ '\n' :: b) = endsNl b := by
        have : a ++ '\n' :: b = (a ++ ['\n']) ++ b := by simp
        rw [this]
        simp only [endsNl]
        rw [List.getLast?_append, List.getLast?_eq_some_getLast hb]
        rfl
      obtain ⟨x, xs, hx⟩ : ∃ x xs, splitKeep '\n' b = x :: xs := by
        cases h : splitKeep '\n' b with
        | nil => exact absurd h (splitKeep_ne_nil _ _)
        | cons x xs => exact ⟨x, xs, rfl⟩
      have hn : ∀ e, normLines src orig e cur ((a ++ ['\n']) :: splitKeep '\n' b) =
          .single (LSingle.new (a ++ ['\n']) src orig cur) :: normLines src orig e (cur + 1) (splitKeep '\n' b) := by
        intro e; rw [hx, normLines]; simp
      rw [hn, he, List.map_cons]
      refine Aligned.cons (by simp [LNode.codeOf, LSingle.new]) ?_ (ih _)
      rw [normLines_codes _ _ _ _ _ (fun h => .inr ((endsNl_iff b).1 h))]
      exact hb

/-- A list map of one text consists of lines. -/
theorem slmNewStr_aligned (s : Str) (src orig : Option Int) : Aligned (normCodes (slmNewStr s src orig)) := by
  unfold slmNewStr slmAddStr
  split
  · simp only [normCodes, List.nil_append, List.map_cons, List.map_nil, List.flatten_cons, List.flatten_nil,
      List.append_nil, LNode.normalized, LSource.new]
    exact normLines_aligned src orig s 1
  · trivial

theorem runCodes_prefix (p : Str) : ∀ (cs : List Str) (u : Unit),
    (runCodes (prefixMap p) u cs).1 = (cs.map (indent p)).flatten
  | [], _ => rfl
  | c :: cs, u => by
    rw [runCodes, List.map_cons, List.flatten_cons, runCodes_prefix p cs]
    simp only [prefixMap, makePrefixed_eq]

theorem prefixListMap_text (p : Str) {m : Slm} (hm : ∀ n ∈ m, n.Merged) (ha : p = [] ∨ Aligned (normCodes m)) :
    slmText (prefixListMap p m) = indent p (slmText m) := by
  rw [prefixListMap, (mapGenerated_text _ _ _).1, runCodes_prefix, aligned_indent p _ ha, normCodes_flatten hm]

/-! ## Replacing -/

/-- What is known after `u` has been consumed and `out` produced, of edits `es` of the whole text. -/
structure RmInv (es : List Edit) (u out : Str) (st : RmState) : Prop where
  remove : 0 ≤ st.remove
  order : LeftToRight (st.pending.map Repl.edit)
  cur : st.pending ≠ [] → st.cur = u.length
  ahead : ∀ r ∈ st.pending, u.length + st.remove.toNat ≤ r.start.toNat
  same : ∀ v, splice (u ++ v) 0 es = out ++ splice (u ++ v) (u.length + st.remove.toNat) (st.pending.map Repl.edit)

theorem rmLoop_inv (es : List Edit) : ∀ (rs : List Repl) (cur : Int) (u s out : Str),
    RmInv es u out ⟨cur, rs, 0⟩ →
    RmInv es (u ++ s) (out ++ (rmLoop cur s rs).1) (rmLoop cur s rs).2
  | [], cur, u, s, out, h => by
    refine ⟨by simp [rmLoop], ⟨by simp [rmLoop], by simp [rmLoop]⟩, by simp [rmLoop], by simp [rmLoop], ?_⟩
    intro v
    have := h.same (s ++ v)
    simp only [rmLoop, splice, List.map_nil, Int.toNat_zero, Nat.add_zero] at this ⊢
    rw [List.append_assoc, this, List.drop_left, List.append_assoc, ← List.append_assoc u,
      List.drop_left]
  | r :: rs, cur, u, s, out, h => by
    have hcur : cur = u.length := h.cur (by simp)
    have hah : u.length ≤ r.start.toNat := by simpa using h.ahead r (by simp)
    have hord := h.order
    simp only [List.map_cons] at hord
    have hle : r.start ≤ r.stop := hord.1 r.edit (by simp)
    have hnext : ∀ q ∈ rs, r.stop ≤ q.start := fun q hq =>
      (List.pairwise_cons.1 hord.2).1 q.edit (List.mem_map_of_mem hq)
    have hsame : ∀ w, splice (u ++ w) 0 es = out ++ (w.take (r.start.toNat - u.length) ++
        (r.text ++ splice (u ++ w) r.stop.toNat (rs.map Repl.edit))) := by
      intro w
      have := h.same w
      simp only [List.map_cons, splice, Repl.edit, Int.toNat_zero, Nat.add_zero] at this
      rw [this, List.drop_take, List.drop_left]
      simp
    by_cases hs : r.start.toNat - u.length ≤ s.length
    · -- the start is reached
      have hstep : stepChars (r.start - cur) s =
          .ok (s.take (r.start.toNat - u.length), s.drop (r.start.toNat - u.length)) := by
        unfold stepChars
        subst hcur
        have : (r.start - (u.length : Int)).toNat = r.start.toNat - u.length := by omega
        split
        · have : r.start.toNat - u.length = 0 := by omega
          rw [this]; simp
        · rw [this, if_pos hs]
      have hpre : (s.take (r.start.toNat - u.length)).length = r.start.toNat - u.length := by
        rw [List.length_take]; omega
      have ht2 : ∀ v : Str, (s ++ v).take (r.start.toNat - u.length) = s.take (r.start.toNat - u.length) := by
        intro v; rw [List.take_append_of_le_length hs]
      have hcur' : cur + (s.take (r.start.toNat - u.length)).length = r.start.toNat := by
        rw [hpre]; omega
      by_cases hs2 : r.stop.toNat - r.start.toNat ≤ (s.drop (r.start.toNat - u.length)).length
      · have hstep2 : stepChars (r.stop - (r.start.toNat : Int)) (s.drop (r.start.toNat - u.length)) =
            .ok ((s.drop (r.start.toNat - u.length)).take (r.stop.toNat - r.start.toNat),
              (s.drop (r.start.toNat - u.length)).drop (r.stop.toNat - r.start.toNat)) := by
          unfold stepChars
          have : (r.stop - (r.start.toNat : Int)).toNat = r.stop.toNat - r.start.toNat := by omega
          split
          · have : r.stop.toNat - r.start.toNat = 0 := by omega
            rw [this]; simp
          · rw [this, if_pos hs2]
        have hlen : ((s.drop (r.start.toNat - u.length)).take (r.stop.toNat - r.start.toNat)).length =
            r.stop.toNat - r.start.toNat := by rw [List.length_take]; omega
        have hred : rmLoop cur s (r :: rs) =
            (s.take (r.start.toNat - u.length) ++ r.text ++ (rmLoop r.stop.toNat (s.drop (r.stop.toNat - u.length)) rs).1,
              (rmLoop r.stop.toNat (s.drop (r.stop.toNat - u.length)) rs).2) := by
          rw [rmLoop, hstep]
          dsimp only
          rw [hcur', hstep2]
          dsimp only
          have e1 : (r.start.toNat : Int) + (((s.drop (r.start.toNat - u.length)).take
              (r.stop.toNat - r.start.toNat)).length : Nat) = (r.stop.toNat : Int) := by rw [hlen]; omega
          have e2 : (s.drop (r.start.toNat - u.length)).drop (r.stop.toNat - r.start.toNat) =
              s.drop (r.stop.toNat - u.length) := by
            rw [List.drop_drop]; congr 1; omega
          rw [e1, e2]
        have hlen' := hs2
        rw [List.length_drop] at hlen'
        have hul : (u ++ s.take (r.stop.toNat - u.length)).length = r.stop.toNat := by
          rw [List.length_append, List.length_take]; omega
        have hsplit : u ++ s = (u ++ s.take (r.stop.toNat - u.length)) ++ s.drop (r.stop.toNat - u.length) := by
          rw [List.append_assoc, List.take_append_drop]
        rw [hred, hsplit]
        dsimp only
        have := rmLoop_inv es rs r.stop.toNat (u ++ s.take (r.stop.toNat - u.length))
          (s.drop (r.stop.toNat - u.length)) (out ++ (s.take (r.start.toNat - u.length) ++ r.text))
          ⟨by simp, hord.tail, fun _ => by rw [hul], by
            intro q hq
            have := hnext q hq
            rw [hul]
            simp only [Int.toNat_zero]
            omega, by
            intro v
            have hw := hsame (s.take (r.stop.toNat - u.length) ++ v)
            have hk : r.start.toNat - u.length ≤ (s.take (r.stop.toNat - u.length)).length := by
              rw [List.length_take]; omega
            rw [List.take_append_of_le_length hk, List.take_take,
              Nat.min_eq_left (by omega : r.start.toNat - u.length ≤ r.stop.toNat - u.length)] at hw
            simp only [Int.toNat_zero, Nat.add_zero]
            rw [hul, List.append_assoc, hw]
            simp only [List.append_assoc]⟩
        simpa [List.append_assoc] using this
      · -- the end lies behind the text
        have hlen' := hs2
        rw [List.length_drop] at hlen'
        have hstep2 : stepChars (r.stop - (r.start.toNat : Int)) (s.drop (r.start.toNat - u.length)) =
            .error (r.stop - r.start.toNat - (s.drop (r.start.toNat - u.length)).length,
              (s.drop (r.start.toNat - u.length)).length) := by
          unfold stepChars
          have : (r.stop - (r.start.toNat : Int)).toNat = r.stop.toNat - r.start.toNat := by omega
          rw [if_neg (by omega), this, if_neg hs2]
        have hred : rmLoop cur s (r :: rs) = (s.take (r.start.toNat - u.length) ++ r.text,
            ⟨(u ++ s).length, rs, r.stop - (u ++ s).length⟩) := by
          rw [rmLoop, hstep]
          dsimp only
          rw [hcur', hstep2]
          dsimp only
          congr 2
          · rw [List.length_drop, List.length_append]; omega
          · rw [List.length_drop, List.length_append]; omega
        rw [hred]
        rw [List.length_append]
        refine ⟨by dsimp only; omega, hord.tail, fun _ => by simp, ?_, ?_⟩
        · intro q hq
          have := hnext q hq
          dsimp only
          rw [List.length_append]
          omega
        · intro v
          have hw := hsame (s ++ v)
          rw [ht2] at hw
          dsimp only
          rw [List.append_assoc, hw]
          have : (u ++ s).length + (r.stop - (↑(u.length + s.length) : Int)).toNat = r.stop.toNat := by
            rw [List.length_append]; omega
          rw [this]
          simp only [List.append_assoc]
    · -- the start lies behind the text
      have hstep : stepChars (r.start - cur) s = .error (r.start - cur - s.length, s.length) := by
        unfold stepChars
        rw [if_neg (by omega), if_neg (by omega)]
      have hred : rmLoop cur s (r :: rs) = (s, ⟨(u ++ s).length, r :: rs, 0⟩) := by
        rw [rmLoop, hstep]
        dsimp only
        congr 2
        rw [List.length_append]; omega
      rw [hred]
      refine ⟨by simp, h.order, fun _ => rfl, ?_, ?_⟩
      · intro q hq
        simp only [Int.toNat_zero, Nat.add_zero, List.length_append]
        rcases List.mem_cons.1 hq with rfl | hq
        · omega
        · have := hnext q hq
          omega
      · intro v
        have hw := hsame (s ++ v)
        simp only [Int.toNat_zero, Nat.add_zero, List.map_cons, splice, Repl.edit]
        rw [List.append_assoc, hw]
        have e : (s ++ v).take (r.start.toNat - u.length) =
            s ++ ((u ++ (s ++ v)).take r.start.toNat).drop (u ++ s).length := by
          rw [List.drop_take, ← List.append_assoc u, List.drop_left, List.take_append,
            List.take_of_length_le (by omega)]
          congr 2
          rw [List.length_append]; omega
        rw [e]
        simp

/-- One call of the rewriting function keeps what is known. -/
theorem rmMap_inv {es : List Edit} {u out : Str} {st : RmState} (h : RmInv es u out st) (c : Str) :
    RmInv es (u ++ c) (out ++ (rmMap st c).1) (rmMap st c).2 := by
  unfold rmMap
  split
  · rename_i hr
    unfold stepChars
    rw [if_neg (by omega)]
    split
    · rename_i x skip rest e
      split at e
      · rename_i hle
        simp only [Except.ok.injEq, Prod.mk.injEq] at e
        obtain ⟨rfl, rfl⟩ := e
        have hl : (c.take st.remove.toNat).length = st.remove.toNat := by rw [List.length_take]; omega
        have := rmLoop_inv es st.pending (st.cur + (c.take st.remove.toNat).length) (u ++ c.take st.remove.toNat)
          (c.drop st.remove.toNat) out ⟨by simp, h.order, fun hp => by
            rw [h.cur hp, List.length_append]; rfl, fun q hq => by
            have := h.ahead q hq
            simp only [List.length_append, hl, Int.toNat_zero]; omega, fun v => by
            have := h.same (c.take st.remove.toNat ++ v)
            simp only [Int.toNat_zero, Nat.add_zero, List.length_append, hl]
            rw [List.append_assoc, this]⟩
        rwa [List.append_assoc, List.take_append_drop] at this
      · cases e
    · rename_i x n chars e
      split at e
      · cases e
      · rename_i hle
        simp only [Except.error.injEq, Prod.mk.injEq] at e
        obtain ⟨rfl, rfl⟩ := e
        refine ⟨by dsimp only; omega, h.order, fun hp => ?_, fun q hq => ?_, fun v => ?_⟩
        · dsimp only; rw [h.cur hp, List.length_append]; rfl
        · have := h.ahead q hq
          dsimp only
          rw [List.length_append]
          omega
        · have := h.same (c ++ v)
          dsimp only
          rw [List.append_assoc, this, List.length_append]
          have : u.length + c.length + (st.remove - c.length).toNat = u.length + st.remove.toNat := by omega
          rw [this]
          simp
  · rename_i hr
    have : st.remove = 0 := by have := h.remove; omega
    apply rmLoop_inv
    rw [← this]
    exact h

theorem runCodes_rm {es : List Edit} : ∀ (cs : List Str) {u out : Str} {st : RmState}, RmInv es u out st →
    RmInv es (u ++ cs.flatten) (out ++ (runCodes rmMap st cs).1) (runCodes rmMap st cs).2
  | [], u, out, st, h => by simpa [runCodes] using h
  | c :: cs, u, out, st, h => by
    have := runCodes_rm cs (rmMap_inv h c)
    simpa [runCodes, List.append_assoc] using this

theorem splice_behind (s : Str) : ∀ (rs : List Repl) (k : Nat), s.length ≤ k →
    (∀ r ∈ rs, s.length ≤ r.start.toNat) → LeftToRight (rs.map Repl.edit) →
    splice s k (rs.map Repl.edit) = (rs.map Repl.text).flatten
  | [], k, h, _, _ => by simp [splice, h]
  | r :: rs, k, h, hr, ho => by
    have h1 := hr r (by simp)
    have h2 : r.start ≤ r.stop := ho.1 r.edit (by simp)
    rw [List.map_cons, splice, splice_behind s rs _ (by show s.length ≤ r.stop.toNat; omega)
      (fun q hq => hr q (by simp [hq])) ho.tail]
    have : (s.take r.start.toNat).drop k = [] := by
      rw [List.take_of_length_le h1, List.drop_of_length_le h]
    simp [Repl.edit, this]

theorem slmAddStr_text (m : Slm) (s : Str) : slmText (slmAddStr m s none none) = slmText m ++ s := by
  have := congrArg (List.map Prod.fst) (slmAddStr_marks m s)
  simp only [List.map_append, piecesMarks_fst, ← slm_pieces_text] at this
  rw [this, List.map_map]
  congr 1
  exact List.map_id s

theorem replaced_text {m : Slm} (hm : ∀ n ∈ m, n.Merged) {sorted : List Repl}
    (ho : LeftToRight (sorted.map Repl.edit).reverse) :
    slmText (replaceListMap m sorted) = splice (slmText m) 0 (sorted.map Repl.edit).reverse := by
  rw [← List.map_reverse] at ho ⊢
  have h0 : RmInv (sorted.reverse.map Repl.edit) [] [] ⟨0, sorted.reverse, 0⟩ :=
    ⟨by simp, ho, fun _ => rfl, fun _ _ => by simp, fun v => by simp⟩
  have h1 := runCodes_rm (normCodes m) h0
  rw [List.nil_append, List.nil_append, normCodes_flatten hm] at h1
  obtain ⟨e1, e2⟩ := mapGenerated_text rmMap ⟨0, sorted.reverse, 0⟩ m
  rw [← e1, ← e2] at h1
  have h2 := h1.same []
  rw [List.append_nil, splice_behind _ _ _ (by omega) (fun r hr => by have := h1.ahead r hr; omega) h1.order] at h2
  rw [replaceListMap]
  dsimp only
  split
  · rename_i he
    rw [h2, List.isEmpty_iff.1 he, List.append_nil]
  · rw [slmAddStr_text, h2]

/-- The text of the list map of a `ReplaceSource`: each request takes what the ones before it left over. -/
theorem replaceListMap_splice {m : Slm} (hm : ∀ n ∈ m, n.Merged) (sorted : List Repl) :
    slmText (replaceListMap m sorted) = splice (slmText m) 0 (clipped 0 (sorted.map Repl.edit).reverse) := by
  rw [← replaceListMap_clipped m sorted, ← clipRepls_reverse]
  exact replaced_text hm (by rw [clipRepls_reverse]; exact clipped_leftToRight _ _)

/-- The text of the list map of a `ReplaceSource` none of whose edits lies within another. -/
theorem replaceListMap_text {m : Slm} (hm : ∀ n ∈ m, n.Merged) {sorted : List Repl}
    (ho : Climbing (sorted.map Repl.edit).reverse) :
    slmText (replaceListMap m sorted) = applyRight (slmText m) (sorted.map Repl.edit) := by
  rw [replaceListMap_splice hm, ← applyRight_clipped _ ho, List.reverse_reverse]

/-! ## Trees -/

theorem concatMaps_text (xs : List (Str ⊕ Slm)) : slmText (concatMaps [] xs) = (xs.map itemText).flatten := by
  have := congrArg (List.map Prod.fst) (concatMaps_marks xs [])
  simp only [List.map_append, piecesMarks_fst, ← slm_pieces_text] at this
  rw [this, List.map_flatten, List.map_map]
  have e : (xs.map (List.map Prod.fst ∘ itemMarks)) = xs.map itemText :=
    List.map_congr_left fun x _ => itemMarks_fst x
  rw [e]
  rfl

theorem concatMaps_built : ∀ (xs : List (Str ⊕ Slm)) (m : Slm), AllBuilt m →
    (∀ l, Sum.inr l ∈ xs → AllBuilt l) → AllBuilt (concatMaps m xs)
  | [], _, hm, _ => hm
  | .inl s :: xs, m, hm, hx => by
    rw [concatMaps]
    exact concatMaps_built xs _ (slmAddStr_built hm s _ _) (fun l hl => hx l (by simp [hl]))
  | .inr l :: xs, m, hm, hx => by
    rw [concatMaps]
    apply concatMaps_built xs _ _ (fun l hl => hx l (by simp [hl]))
    intro n hn
    rcases List.mem_append.1 hn with hn | hn
    · exact hm n hn
    · exact hx l (by simp) n hn

mutual
  /-- The pieces that prefixes are put before are lines, and the edits lie one behind the other. -/
  def Tree.LinesFit (cols mod : Bool) : Tree → Prop
    | .prefixed p t => t.LinesFit cols mod ∧
        ∀ m, t.listMap cols mod = .ok m → p = [] ∨ Aligned (normCodes m)
    | .replace t cs => t.LinesFit cols mod ∧ Climbing ((sortedCalls cs).map Repl.edit).reverse
    | .concat ts => Tree.LinesFits cols mod ts
    | _ => True
  /-- All items do. -/
  def Tree.LinesFits (cols mod : Bool) : List Tree → Prop
    | [] => True
    | t :: ts => t.LinesFit cols mod ∧ Tree.LinesFits cols mod ts
end

theorem slmNewStr_built (s : Str) (src orig : Option Int) : AllBuilt (slmNewStr s src orig) := by
  exact slmAddStr_built (by intro n hn; cases hn) s src orig

theorem slmNewStr_text (s : Str) (src orig : Option Int) : slmText (slmNewStr s src orig) = s := by
  unfold slmNewStr slmAddStr
  split
  · simp [slmText, LNode.text, LSource.new]
  · simp [slmText, LNode.text]

mutual
  /-- The list map of a tree spells its text. -/
  theorem Tree.listMap_text (cols mod : Bool) : ∀ (t : Tree) (m : Slm), t.listMap cols mod = .ok m →
      AllBuilt m ∧ (t.LinesFit cols mod → slmText m = t.text)
    | .str s, m, h => by cases h
    | .raw v, m, h => by cases h; exact ⟨slmNewStr_built _ _ _, fun _ => slmNewStr_text _ _ _⟩
    | .original v n i, m, h => by cases h; exact ⟨slmNewStr_built _ _ _, fun _ => slmNewStr_text _ _ _⟩
    | .l2l v n o, m, h => by cases h; exact ⟨slmNewStr_built _ _ _, fun _ => slmNewStr_text _ _ _⟩
    | .sms s, m, h => by
      rw [Tree.listMap, Sms.listMap] at h
      split at h
      · cases h
        exact ⟨slmNewStr_built s.value (some s.name) (some s.valueIdx),
          fun _ => slmNewStr_text s.value (some s.name) (some s.valueIdx)⟩
      · split at h
        · cases h
        · split at h
          · cases h
          · rename_i d map _ x e
            cases h
            exact ⟨slmFromString_built e, fun _ => (C13_text _ _ _ _).1 _ e none⟩
    | .prefixed p t, m, h => by
      rw [Tree.listMap] at h
      cases hm : t.listMap cols mod with
      | error e => rw [hm] at h; cases h
      | ok x =>
        rw [hm] at h; cases h
        obtain ⟨h1, h2⟩ := Tree.listMap_text cols mod t x hm
        refine ⟨slmMapGenerated_built _ _ h1, fun hf => ?_⟩
        rw [prefixListMap_text p (fun n hn => (h1 n hn).merged) (hf.2 x hm), h2 hf.1, Tree.text]
    | .replace t cs, m, h => by
      rw [Tree.listMap] at h
      cases hm : t.listMap cols mod with
      | error e => rw [hm] at h; cases h
      | ok x =>
        rw [hm] at h; cases h
        obtain ⟨h1, h2⟩ := Tree.listMap_text cols mod t x hm
        refine ⟨?_, fun hf => ?_⟩
        · show AllBuilt (replaceListMap x (sortedCalls cs))
          rw [replaceListMap]
          dsimp only
          split
          · exact slmMapGenerated_built _ _ h1
          · exact slmAddStr_built (slmMapGenerated_built _ _ h1) _ _ _
        · rw [replaceListMap_text (fun n hn => (h1 n hn).merged) hf.2, h2 hf.1, Tree.text]
    | .concat ts, m, h => by
      rw [Tree.listMap] at h
      cases hm : Tree.listMaps cols mod ts with
      | error e => rw [hm] at h; cases h
      | ok xs =>
        rw [hm] at h; cases h
        obtain ⟨h1, h2⟩ := Tree.listMaps_text cols mod ts xs hm
        refine ⟨concatMaps_built _ _ (by intro n hn; cases hn) h1, fun hf => ?_⟩
        rw [concatMaps_text, h2 hf, Tree.text]
  /-- The same for items. -/
  theorem Tree.listMaps_text (cols mod : Bool) : ∀ (ts : List Tree) (xs : List (Str ⊕ Slm)),
      Tree.listMaps cols mod ts = .ok xs →
      (∀ l, Sum.inr l ∈ xs → AllBuilt l) ∧
      (Tree.LinesFits cols mod ts → xs.map itemText = Tree.texts ts)
    | [], xs, h => by cases h; exact ⟨(by intro l hl; cases hl), fun _ => rfl⟩
    | t :: ts, xs, h => by
      have key : ∃ x ys, xs = x :: ys ∧ Tree.listMaps cols mod ts = .ok ys ∧
          ((∃ s, t = .str s ∧ x = .inl s) ∨ ∃ l, t.listMap cols mod = .ok l ∧ x = .inr l) := by
        rw [Tree.listMaps_eq, allM] at h
        rw [Tree.listMaps_eq]
        cases hx : Tree.itemMap cols mod t with
        | error e => rw [hx] at h; cases h
        | ok x =>
          rw [hx] at h
          cases hy : allM (Tree.itemMap cols mod) ts with
          | error e => rw [hy] at h; cases h
          | ok ys =>
            rw [hy] at h; cases h
            refine ⟨x, ys, rfl, rfl, ?_⟩
            have hinr : ∀ {r : M Slm}, r.map Sum.inr = Except.ok x → ∃ l, r = .ok l ∧ x = Sum.inr l := by
              intro r hr
              cases r with
              | error e => cases hr
              | ok l => cases hr; exact ⟨l, rfl, rfl⟩
            cases t with
            | str s => cases hx; exact .inl ⟨s, rfl, rfl⟩
            | _ => exact .inr (hinr hx)
      obtain ⟨x, ys, rfl, hys, hx⟩ := key
      obtain ⟨h1, h2⟩ := Tree.listMaps_text cols mod ts ys hys
      rcases hx with ⟨s, rfl, rfl⟩ | ⟨l, hl, rfl⟩
      · refine ⟨fun l hl => (List.mem_cons.1 hl).elim (fun h => by cases h) (h1 l), fun hf => ?_⟩
        rw [List.map_cons, h2 hf.2, Tree.texts, itemText, Tree.text]
      · obtain ⟨h3, h4⟩ := Tree.listMap_text cols mod t l hl
        refine ⟨by
          intro l' hl
          rcases List.mem_cons.1 hl with hl | hl
          · cases hl; exact h3
          · exact h1 l' hl, fun hf => ?_⟩
        rw [List.map_cons, h2 hf.2, Tree.texts, itemText, h4 hf.1]
end

end WS
