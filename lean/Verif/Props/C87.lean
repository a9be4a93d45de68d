import Verif.Props.C79
import Verif.Props.C21
/-!
# C87: line maps settle after one reading

Claim: a map read into a list map and rendered, then read and rendered again with the same text, gives the same pair. This
is the round trip `fromStringWithSourceMap` (`src/source_list_map/from_string_with_source_map.rs`) and
`to_string_with_source_map` (`source_list_map.rs:191-233`) that line maps take each time they go through a
`SourceMapSource`. The map may be anything that can be read, with files missing, sums below 0 and segments cut short: after
one reading nothing changes any more. Missing: files named -1 beside missing ones and lines beyond 32 bits, where it is
false (`C87_not_minus_one`, `C87_not_line`). With the 32 bits of the wasm build the latter goes away: `Props/C87Wasm.lean`.
-/

namespace WS
open Spec

/-! ## Line by line -/

/-- A line with file, content and line, if it is attributed. -/
abbrev TLine := Str × Option (Option Int × Option Int × Nat)

/-- The mappings of one line. -/
def lineMapping (c : MapCtx) : TLine → Str × MapCtx
  | (l, none) => codeMappings c l
  | (l, some (s, o, n)) => LSource.mappings c (LSource.new l s o n)

/-- The mappings of several lines. -/
def linesMapping : MapCtx → List TLine → Str × MapCtx
  | c, [] => ([], c)
  | c, x :: L => ((lineMapping c x).1 ++ (linesMapping (lineMapping c x).2 L).1, (linesMapping (lineMapping c x).2 L).2)

theorem linesMapping_append : ∀ (L L' : List TLine) (c : MapCtx), linesMapping c (L ++ L') =
    ((linesMapping c L).1 ++ (linesMapping (linesMapping c L).2 L').1, (linesMapping (linesMapping c L).2 L').2)
  | [], _, _ => rfl
  | x :: L, L', c => by
    rw [List.cons_append, linesMapping, linesMapping, linesMapping_append L L']
    simp only [List.append_assoc]

theorem slmMappings_snoc : ∀ (m : Slm) (x : LNode) (c : MapCtx), slmMappings c (m ++ [x]) =
    ((slmMappings c m).1 ++ (x.mappings (slmMappings c m).2).1, (x.mappings (slmMappings c m).2).2)
  | [], x, c => by simp [slmMappings]
  | y :: m, x, c => by
    rw [List.cons_append, slmMappings, slmMappings]
    dsimp only
    rw [slmMappings_snoc m x]
    simp only [List.append_assoc]

theorem nl_facts {x : Str} (hx : '\n' ∉ x) : unfinishedLines (x ++ ['\n']) = 0 ∧ numberOfLines (x ++ ['\n']) = 1 := by
  refine ⟨?_, ?_⟩
  · rw [unfinished_append (by simp)]; rfl
  · unfold numberOfLines
    rw [List.count_append, List.count_eq_zero.2 hx]; rfl

theorem lookup_snoc {k : Option Int} {v : Nat × Option Int} : ∀ (l : List (Option Int × Nat × Option Int)),
    l.lookup k = none → (l ++ [(k, v)]).lookup k = some v
  | [], _ => by simp
  | (k', v') :: l, h => by
    simp only [List.lookup, List.cons_append] at h ⊢
    split at h
    · cases h
    · rename_i e; rw [e] at *; exact lookup_snoc l h

/-- After a node its file is in the table. -/
theorem ensureSource_again (c d : MapCtx) (s o o' : Option Int) (h : d.sources = (c.ensureSource s o).2.sources) :
    d.ensureSource s o' = ((c.ensureSource s o).1, d) := by
  unfold MapCtx.ensureSource at *
  cases e : c.sources.lookup s with
  | some p => rw [e] at h; simp [h, e]
  | none => rw [e] at h; simp [h, lookup_snoc _ e]

/-- One line: with a newline at the end or without any. -/
def Lined (l : Str) : Prop := (∃ x, l = x ++ ['\n'] ∧ '\n' ∉ x) ∨ '\n' ∉ l

theorem vlqEncode_one : vlqEncode 1 = ['C'] := by decide +kernel

/-- A source node with one line more. -/
theorem source_more (c : MapCtx) {n : LSource} (h1 : n.code ≠ []) (h2 : unfinishedLines n.code = 0)
    (h3 : n.numLines = numberOfLines n.code) {l : Str} (hl : Lined l) (o : Option Int) :
    LSource.mappings c (n.addCode l) = ((LSource.mappings c n).1 ++
      (LSource.mappings (LSource.mappings c n).2 (LSource.new l n.source o (n.startLine + n.numLines))).1,
      (LSource.mappings (LSource.mappings c n).2 (LSource.new l n.source o (n.startLine + n.numLines))).2) := by
  have hpos := numberOfLines_pos_of_finished h1 h2
  rw [← h3] at hpos
  obtain ⟨k, hk⟩ : ∃ k, n.numLines = k + 1 := ⟨n.numLines - 1, by omega⟩
  have e1 : n.code.isEmpty = false := by simpa using h1
  have e2 : (n.code ++ l).isEmpty = false := by simp [h1]
  have ea := ensureSource_again c
    { (c.ensureSource n.source n.original).2 with
        source := (c.ensureSource n.source n.original).1, unfinished := 0,
        origLine := n.startLine + (k + 1) - 1 } n.source n.original o rfl
  have es : ∀ a b : Str, a ++ List.flatten (List.replicate (k + 1) nextLineSeg) ++ b =
      a ++ List.flatten (List.replicate k nextLineSeg) ++ (nextLineSeg ++ b) := by
    intro a b
    rw [List.replicate_succ', List.flatten_append]; simp
  by_cases hl0 : l = []
  · subst hl0
    simp [LSource.mappings, LSource.addCode, LSource.new, numberOfLines]
  have e3 : l.isEmpty = false := by simpa using hl0
  simp only [LSource.mappings, LSource.addCode, LSource.new, e1, e2, e3, Bool.false_eq_true, if_false, h2, if_true, hk, ea]
  have hd : headSeg { (c.ensureSource n.source n.original).2 with
        source := (c.ensureSource n.source n.original).1, unfinished := 0,
        origLine := n.startLine + (k + 1) - 1 } (c.ensureSource n.source n.original).1 (n.startLine + (k + 1)) =
      "AACA".toList := by
    unfold headSeg
    dsimp only
    rw [if_neg (by simp), Int.sub_self, vlqEncode_zero,
      show ((n.startLine + (k + 1) : Nat) : Int) - ((n.startLine + (k + 1) - 1 : Nat) : Int) = 1 by omega, vlqEncode_one]
    rfl
  rw [hd]
  rcases hl with ⟨x, rfl, hx⟩ | hn
  · obtain ⟨f1, f2⟩ := nl_facts hx
    rw [unfinished_append (t := x ++ ['\n']) (by simp), f1, f2]
    simp only [if_true, Nat.add_sub_cancel, es, Nat.sub_self, List.replicate_zero, List.flatten_nil, List.append_nil,
      List.append_assoc]
    refine Prod.ext ?_ ?_
    · simp [nextLineSeg]
    · simp
  · have hu : unfinishedLines (n.code ++ l) = blen l := by
      have : n.code.getLast? = some '\n' := (unfinished_zero.1 h2).resolve_left h1
      obtain ⟨y, hy⟩ := List.getLast?_eq_some_iff.1 this
      rw [hy, List.append_assoc]
      exact unfinished_after_nl y l hn
    have hb : blen l ≠ 0 := by
      rw [← unfinished_of_not_mem hn]
      intro h
      rcases unfinished_zero.1 h with h | h
      · exact hl0 h
      · exact hn (List.mem_of_getLast? h)
    have hz : numberOfLines l = 0 := List.count_eq_zero.2 hn
    rw [hu, unfinished_of_not_mem hn, hz]
    simp [hb, nextLineSeg]

/-- Code with one line more. -/
theorem code_more (c : MapCtx) {s : Str} (h1 : s ≠ []) (h2 : unfinishedLines s = 0) {l : Str} (hl : Lined l) :
    codeMappings c (s ++ l) = ((codeMappings c s).1 ++ (codeMappings (codeMappings c s).2 l).1,
      (codeMappings (codeMappings c s).2 l).2) := by
  have hpos := numberOfLines_pos_of_finished h1 h2
  have hadd : numberOfLines (s ++ l) = numberOfLines s + numberOfLines l := by simp [numberOfLines]
  have hs : codeMappings c s = (List.replicate (numberOfLines s) ';', { c with unfinished := 0 }) := by
    simp [codeMappings, h2, show 0 < numberOfLines s by omega]
  have hp2 : 0 < numberOfLines s + numberOfLines l := by omega
  rw [hs]
  rcases hl with ⟨x, rfl, hx⟩ | hn
  · obtain ⟨f1, f2⟩ := nl_facts hx
    have hu : unfinishedLines (s ++ (x ++ ['\n'])) = 0 := by rw [unfinished_append (by simp), f1]
    simp [codeMappings, hadd, hu, f1, f2, List.replicate_succ']
  · have hu : unfinishedLines (s ++ l) = blen l := by
      have : s.getLast? = some '\n' := (unfinished_zero.1 h2).resolve_left h1
      obtain ⟨y, hy⟩ := List.getLast?_eq_some_iff.1 this
      rw [hy, List.append_assoc]
      exact unfinished_after_nl y l hn
    have hz : numberOfLines l = 0 := List.count_eq_zero.2 hn
    rw [hz, Nat.add_zero] at hp2 hadd
    simp [codeMappings, hadd, hu, hz, hp2, unfinished_of_not_mem hn]

/-! ## The reader -/

/-- What a line goes with. -/
def readLine (S C : List Int) (a : Int × Int) (xss : List (List Int)) (prev : Option (Option Int × Option Int × Nat))
    (l : Str) : Option (Option Int × Option Int × Nat) :=
  ((firstSums a xss).map fun o => (S[low o.1]?, C[low o.1]?, low o.2)).or (if isBlank l then prev else none)

/-- The next line of a file. -/
def nextOf (x : Option (Option Int × Option Int × Nat)) : Option (Option Int × Option Int × Nat) :=
  x.map fun y => (y.1, y.2.1, y.2.2 + 1)

/-- The lines as read. -/
def readTLines (S C : List Int) : Int × Int → List (List (List Int)) → Option (Option Int × Option Int × Nat) →
    List Str → List TLine
  | _, _, _, [] => []
  | a, n, prev, l :: ls => (l, readLine S C a (n.headD []) prev l) ::
      readTLines S C ((n.headD []).foldl summed a) n.tail (nextOf (readLine S C a (n.headD []) prev l)) ls

/-- The nodes so far say the same as the lines. -/
structure KeptLines (rev : List LNode) (L : List TLine) : Prop where
  render : ∀ c, slmMappings c rev.reverse = linesMapping c L
  bound : ∀ B, (∀ n, .source n ∈ rev → n.startLine + n.numLines ≤ B) →
    ∀ l s o k, (l, some (s, o, k)) ∈ L → k ≤ B
  text : slmText rev.reverse = (L.map Prod.fst).flatten

/-- What the last node says of the next line. -/
def HeadSays : List LNode → Nat → Option (Option Int × Option Int × Nat) → Prop
  | [], _, prev => prev = none
  | .code s :: _, _, prev => prev = none ∧ s ≠ [] ∧ unfinishedLines s = 0
  | .source n :: _, nl, prev => n.code ≠ [] ∧ unfinishedLines n.code = 0 ∧ n.numLines = numberOfLines n.code ∧
      n.startLine + n.numLines = nl ∧ ∃ o, prev = some (n.source, o, nl)
  | _ :: _, _, _ => False

theorem slmText_snoc (m : Slm) (x : LNode) : slmText (m ++ [x]) = slmText m ++ x.text := by
  simp [slmText]

theorem linesMapping_snoc (L : List TLine) (x : TLine) (c : MapCtx) : linesMapping c (L ++ [x]) =
    ((linesMapping c L).1 ++ (lineMapping (linesMapping c L).2 x).1, (lineMapping (linesMapping c L).2 x).2) := by
  rw [linesMapping_append]
  simp [linesMapping]

/-- A new node. -/
theorem KeptLines.push {rev : List LNode} {L : List TLine} (K : KeptLines rev L) (x : LNode) (y : TLine)
    (h1 : ∀ c, x.mappings c = lineMapping c y) (h2 : x.text = y.1)
    (h3 : ∀ s o k, y.2 = some (s, o, k) → ∃ n, x = .source n ∧ k ≤ n.startLine + n.numLines) :
    KeptLines (x :: rev) (L ++ [y]) := by
  refine ⟨fun c => ?_, fun B hB l s o k hm => ?_, ?_⟩
  · rw [List.reverse_cons, slmMappings_snoc, linesMapping_snoc, K.render, h1]
  · rcases List.mem_append.1 hm with hm | hm
    · exact K.bound B (fun n hn => hB n (by simp [hn])) l s o k hm
    · cases List.mem_singleton.1 hm
      obtain ⟨n, rfl, hk⟩ := h3 s o k rfl
      exact Nat.le_trans hk (hB n (by simp))
  · rw [List.reverse_cons, slmText_snoc, K.text, h2]; simp

/-- The last node gets one line more. -/
theorem KeptLines.more {rev : List LNode} {L : List TLine} {x x' : LNode} (K : KeptLines (x :: rev) L) (y : TLine)
    (h1 : ∀ c, x'.mappings c = ((x.mappings c).1 ++ (lineMapping (x.mappings c).2 y).1, (lineMapping (x.mappings c).2 y).2))
    (h2 : x'.text = x.text ++ y.1)
    (h3 : ∀ n, x = .source n → ∃ n', x' = .source n' ∧ n.startLine + n.numLines ≤ n'.startLine + n'.numLines)
    (h4 : ∀ s o k, y.2 = some (s, o, k) → ∃ n, x' = .source n ∧ k ≤ n.startLine + n.numLines) :
    KeptLines (x' :: rev) (L ++ [y]) := by
  refine ⟨fun c => ?_, fun B hB l s o k hm => ?_, ?_⟩
  · have := K.render c
    rw [List.reverse_cons, slmMappings_snoc] at this
    rw [List.reverse_cons, slmMappings_snoc, linesMapping_snoc, ← this, h1]
    simp only [List.append_assoc]
  · rcases List.mem_append.1 hm with hm | hm
    · refine K.bound B (fun n hn => ?_) l s o k hm
      rcases List.mem_cons.1 hn with rfl | hn
      · obtain ⟨n', rfl, hle⟩ := h3 n rfl
        exact Nat.le_trans hle (hB n' (by simp))
      · exact hB n (by simp [hn])
    · cases List.mem_singleton.1 hm
      obtain ⟨n, rfl, hk⟩ := h4 s o k rfl
      exact Nat.le_trans hk (hB n (by simp))
  · have := K.text
    rw [List.reverse_cons, slmText_snoc] at this
    rw [List.reverse_cons, slmText_snoc, h2, ← List.append_assoc, this]; simp

/-- A line that ends. -/
def Ended (l : Str) : Prop := ∃ x, l = x ++ ['\n'] ∧ '\n' ∉ x

theorem source_new_says {l : Str} (h : Ended l) (s o : Option Int) (k : Nat) (rev : List LNode) :
    HeadSays (.source (LSource.new l s o k) :: rev) (k + 1) (some (s, o, k + 1)) := by
  obtain ⟨x, rfl, hx⟩ := h
  obtain ⟨f1, f2⟩ := nl_facts hx
  exact ⟨by simp [LSource.new], f1, rfl, by simp [LSource.new, f2], _, rfl⟩

theorem source_more_says {l : Str} (h : Ended l) {n : LSource} {nl : Nat} {rev : List LNode}
    {prev : Option (Option Int × Option Int × Nat)} (S : HeadSays (.source n :: rev) nl prev) (o : Option Int) :
    HeadSays (.source (n.addCode l) :: rev) (nl + 1) (some (n.source, o, nl + 1)) := by
  obtain ⟨x, rfl, hx⟩ := h
  obtain ⟨f1, f2⟩ := nl_facts hx
  obtain ⟨g1, g2, g3, g4, -⟩ := S
  refine ⟨by simp [LSource.addCode], ?_, ?_, by simp only [LSource.addCode, f2]; omega, _, rfl⟩
  · simp only [LSource.addCode]; rw [unfinished_append (by simp), f1]
  · simp only [LSource.addCode, g3]; simp [numberOfLines]

theorem addSource_kept {st : LfState} {L : List TLine} {prev : Option (Option Int × Option Int × Nat)}
    (S : HeadSays st.rev st.nodeLine prev) (K : KeptLines st.rev L) {l : Str} (hl : Lined l) (s o : Option Int) (k : Nat) :
    KeptLines (lfAddSource st l s o k).rev (L ++ [(l, some (s, o, k))]) ∧
      (Ended l → HeadSays (lfAddSource st l s o k).rev (lfAddSource st l s o k).nodeLine (some (s, o, k + 1))) := by
  have new : KeptLines (.source (LSource.new l s o k) :: st.rev) (L ++ [(l, some (s, o, k))]) :=
    K.push _ _ (fun c => rfl) rfl (fun s' o' k' e => by cases e; exact ⟨_, rfl, Nat.le_add_right _ _⟩)
  unfold lfAddSource
  split
  · rename_i n rest e
    split
    · rename_i h
      obtain ⟨rfl, rfl⟩ := h
      rw [e] at S K
      obtain ⟨g1, g2, g3, g4, -⟩ := id S
      refine ⟨K.more _ (fun c => ?_) rfl (fun n' e => ⟨n.addCode l, rfl, ?_⟩)
        (fun s' o' k' e => ⟨n.addCode l, rfl, ?_⟩), fun h => source_more_says h S o⟩
      · rw [← g4]; exact source_more c g1 g2 g3 hl o
      · cases e; simp only [LSource.addCode]; omega
      · cases e; simp only [LSource.addCode]; omega
    · exact ⟨new, fun h => source_new_says h s o k _⟩
  · exact ⟨new, fun h => source_new_says h s o k _⟩

theorem addCode_kept {st : LfState} {L : List TLine} {prev : Option (Option Int × Option Int × Nat)}
    (S : HeadSays st.rev st.nodeLine prev) (K : KeptLines st.rev L) {l : Str} (hl : Lined l) :
    KeptLines (lfAddCode st l).rev (L ++ [(l, if isBlank l then prev else none)]) ∧
      (Ended l → HeadSays (lfAddCode st l).rev (lfAddCode st l).nodeLine (nextOf (if isBlank l then prev else none))) := by
  have codeSays : ∀ (t : Str) (rev : List LNode) (nl : Nat), Ended l → HeadSays (.code (t ++ l) :: rev) nl none := by
    rintro t rev nl ⟨x, rfl, hx⟩
    exact ⟨rfl, by simp, by rw [unfinished_append (by simp), (nl_facts hx).1]⟩
  have new : KeptLines (.code l :: st.rev) (L ++ [(l, none)]) :=
    K.push _ _ (fun c => rfl) rfl (fun s' o' k' e => by cases e)
  unfold lfAddCode
  split
  · rename_i s rest e
    rw [e] at S K
    obtain ⟨rfl, g1, g2⟩ := S
    rw [ite_self]
    exact ⟨K.more _ (fun c => code_more c g1 g2 hl) rfl (fun n e => by cases e) (fun s' o' k' e => by cases e),
      codeSays s rest _⟩
  · rename_i n rest e
    rw [e] at S
    split
    · rw [e] at K
      obtain ⟨g1, g2, g3, g4, o, rfl⟩ := id S
      refine ⟨K.more _ (fun c => ?_) rfl (fun n' e => ⟨n.addCode l, rfl, ?_⟩)
        (fun s' o' k' e => ⟨n.addCode l, rfl, ?_⟩), fun h => source_more_says h S o⟩
      · rw [← g4]; exact source_more c g1 g2 g3 hl o
      · cases e; simp only [LSource.addCode]; omega
      · cases e; simp only [LSource.addCode]; omega
    · exact ⟨new, codeSays [] _ _⟩
  · rename_i h1 h2
    have hp : prev = none := by
      generalize hr : st.rev = r at S h1 h2
      cases r with
      | nil => exact S
      | cons x r =>
        cases x with
        | code s => exact absurd rfl (h1 s r)
        | source n => exact absurd rfl (h2 n r)
        | _ => cases S
    subst hp
    rw [ite_self]
    exact ⟨new, codeSays [] _ _⟩

/-! ## The lines behind the mappings -/

theorem fold_code (st : LfState) (rest : List LNode) : ∀ (ls : List Str) (s : Str),
    ls.foldl lfAddCode { st with rev := .code s :: rest } = { st with rev := .code (s ++ ls.flatten) :: rest }
  | [], s => by simp
  | l :: ls, s => by
    rw [List.foldl_cons]
    change ls.foldl lfAddCode { st with rev := .code (s ++ l) :: rest } = _
    rw [fold_code st rest ls, List.flatten_cons, List.append_assoc]

theorem lfRest_fold : ∀ (ls : List Str) (st : LfState), lfRest st ls = ls.foldl lfAddCode st
  | [], _ => rfl
  | l :: ls, st => by
    rw [lfRest, List.foldl_cons, isBlank_nl]
    split
    · exact lfRest_fold ls _
    · rename_i h
      have h' : ¬ isBlank (l ++ ls.flatten) = true := by
        intro hb
        apply h
        simp only [isBlank, List.all_append, Bool.and_eq_true] at hb ⊢
        exact hb.1
      obtain ⟨s, rest, e1, e2⟩ : ∃ s rest, lfAddCode st l = { st with rev := .code (s ++ l) :: rest } ∧
          lfAddCode st (l ++ ls.flatten) = { st with rev := .code (s ++ (l ++ ls.flatten)) :: rest } := by
        unfold lfAddCode
        split
        · exact ⟨_, _, rfl, rfl⟩
        · rw [if_neg h, if_neg h']; exact ⟨[], _, rfl, rfl⟩
        · exact ⟨[], _, rfl, rfl⟩
      rw [e1, e2, fold_code, List.append_assoc]

theorem CodeLines.lined {l : Str} {ls : List Str} (h : CodeLines (l :: ls)) : Lined l := by
  cases ls with
  | nil => exact .inr h
  | cons l' ls => exact .inl h.cons.1

theorem rest_kept {S C : List Int} : ∀ (ls : List Str) (st : LfState) {L : List TLine}
    {prev : Option (Option Int × Option Int × Nat)} (a : Int × Int), CodeLines ls → HeadSays st.rev st.nodeLine prev →
    KeptLines st.rev L → KeptLines (ls.foldl lfAddCode st).rev (L ++ readTLines S C a [] prev ls)
  | [], st, L, prev, a, _, _, K => by simpa [readTLines] using K
  | l :: ls, st, L, prev, a, h, hs, K => by
    obtain ⟨h1, h2⟩ := addCode_kept hs K h.lined
    rw [List.foldl_cons, readTLines]
    have hr : readLine S C a (([] : List (List (List Int))).headD []) prev l = if isBlank l then prev else none := by
      simp [readLine, firstSums]
    rw [hr, List.append_cons]
    cases ls with
    | nil => simpa [readTLines] using h1
    | cons l' ls => exact rest_kept (l' :: ls) _ _ h.tail (h2 h.cons.1) h1

/-! ## All lines -/

theorem lines_read {S C : List Int} : ∀ (ms : List Str) (n : List (List (List Int))) (ls : List Str) (st : LfState)
    (a : Int × Int) (prev : Option (Option Int × Option Int × Nat)) (L : List TLine),
    Each (fun m xss => leads (cut ',' m) = some xss) (ms.take ls.length) n → CodeLines ls →
    HeadSays st.rev st.nodeLine prev → KeptLines st.rev L →
    ∃ st' rest, lfLines S C (put st a) ls ms = .ok (st', rest) ∧
      KeptLines (lfRest st' rest).rev (L ++ readTLines S C a n prev ls)
  | [], n, ls, st, a, prev, L, hn, hls, hs, K => by
    rw [List.take_nil] at hn
    cases hn with
    | nil =>
      have e : lfLines S C (put st a) ls [] = .ok (put st a, ls) := by cases ls <;> rfl
      refine ⟨_, ls, e, ?_⟩
      rw [lfRest_fold]
      exact rest_kept ls (put st a) a hls hs K
  | m :: ms, n, [], st, a, prev, L, hn, hls, hs, K =>
    ⟨put st a, [], lfLines_nil _ _, by simpa [lfRest, readTLines, put] using K⟩
  | m :: ms, n, l :: ls, st, a, prev, L, hn, hls, hs, K => by
    rw [List.length_cons, List.take_succ_cons] at hn
    cases hn with
    | cons hn1 hn2 =>
      rename_i xss n
      have step : ∃ st1, lfLine S C (put st a) l m = .ok (put st1 (xss.foldl summed a)) ∧
          KeptLines st1.rev (L ++ [(l, readLine S C a xss prev l)]) ∧
          (Ended l → HeadSays st1.rev st1.nodeLine (nextOf (readLine S C a xss prev l))) := by
        rw [lfLine_any, hn1]
        dsimp only
        rw [segsEffect_put]
        simp only [Bool.false_eq_true, if_false]
        cases hf : firstSums a xss with
        | none =>
          have hr : readLine S C a xss prev l = if isBlank l then prev else none := by simp [readLine, hf]
          rw [hr]
          exact ⟨lfAddCode st l, by simp [lfAddCode_put], addCode_kept hs K hls.lined⟩
        | some o =>
          have hr : readLine S C a xss prev l = some (S[low o.1]?, C[low o.1]?, low o.2) := by simp [readLine, hf]
          rw [hr]
          exact ⟨lfAddSource st l S[low o.1]? C[low o.1]? (low o.2), by simp [lfAddSource_put],
            addSource_kept hs K hls.lined _ _ _⟩
      obtain ⟨st1, s1, s2, s3⟩ := step
      rw [lfLines, s1, readTLines]
      dsimp only [List.headD_cons, List.tail_cons]
      cases ls with
      | nil =>
        rw [lfLines_nil]
        exact ⟨_, [], rfl, by simpa [lfRest, readTLines, put] using s2⟩
      | cons l' ls =>
        obtain ⟨st', rest, t1, t2⟩ := lines_read (S := S) (C := C) ms n (l' :: ls) st1 (xss.foldl summed a) _ _ hn2
          hls.tail (s3 hls.cons.1) s2
        exact ⟨st', rest, t1, by rw [List.append_cons]; exact t2⟩

/-- The whole reading. -/
theorem slmFromString_tlines (code : Str) (S C : List Int) (mappings : Str) (n : List (List (List Int)))
    (hn : Each (fun m xss => leads (cut ',' m) = some xss) ((splitDrop ';' mappings).take (splitKeep '\n' code).length) n) :
    ∃ m, slmFromString code S C mappings = .ok m ∧
      KeptLines m.reverse (readTLines S C (0, 1) n none (splitKeep '\n' code)) := by
  obtain ⟨st, rest, h1, h2⟩ := lines_read (S := S) (C := C) _ n (splitKeep '\n' code)
    { rev := [], curLine := 1, curSource := 0, nodeLine := 0 } (0, 1) none [] hn (codeLines_splitKeep code) rfl
    ⟨fun c => rfl, fun B _ l s o k h => by simp at h, rfl⟩
  have e : put { rev := [], curLine := 1, curSource := 0, nodeLine := 0 } (0, 1) =
      { rev := [], curLine := 1, curSource := 0, nodeLine := 0 } := rfl
  rw [e] at h1
  refine ⟨(lfRest st rest).rev.reverse, by unfold slmFromString; rw [h1], ?_⟩
  rw [List.reverse_reverse]
  simpa using h2

/-! ## The table -/

/-- Files are numbered in the table and each stands there once. -/
structure Tabled (c : MapCtx) : Prop where
  bound : ∀ s i o, c.sources.lookup s = some (i, o) → i < c.sources.length
  nodup : (c.sources.map Prod.fst).Nodup

theorem not_mem_of_lookup {k : Option Int} : ∀ (l : List (Option Int × Nat × Option Int)), l.lookup k = none →
    k ∉ l.map Prod.fst
  | [], _ => by simp
  | (k', v) :: l, h => by
    rw [List.lookup_cons] at h
    split at h
    · cases h
    · rename_i e
      have : ¬ k = k' := by simpa using e
      simpa [this] using not_mem_of_lookup l h

/-- What becomes of the table. -/
inductive Ensured (c : MapCtx) (s o : Option Int) : Nat → MapCtx → Prop where
  | old {i : Nat} : i < c.sources.length → Ensured c s o i c
  | new : s ∉ c.sources.map Prod.fst → Ensured c s o c.sources.length { c with
      sources := c.sources ++ [(s, c.sources.length, o)] }

theorem Tabled.ensured {c : MapCtx} (T : Tabled c) (s o : Option Int) :
    Ensured c s o (c.ensureSource s o).1 (c.ensureSource s o).2 ∧ Tabled (c.ensureSource s o).2 := by
  unfold MapCtx.ensureSource
  cases e : c.sources.lookup s with
  | some p => exact ⟨.old (T.bound s p.1 p.2 e), T⟩
  | none =>
    refine ⟨.new (not_mem_of_lookup _ e), ⟨fun s' i o' h => ?_, ?_⟩⟩
    · dsimp only at h ⊢
      rw [List.lookup_append] at h
      rw [List.length_append, List.length_singleton]
      cases e' : c.sources.lookup s' with
      | some p =>
        rw [e'] at h
        have := T.bound s' p.1 p.2 e'
        cases h
        dsimp only at this
        omega
      | none =>
        rw [e', Option.none_or] at h
        simp only [List.lookup] at h
        split at h
        · cases h; omega
        · cases h
    · rw [List.map_append, List.nodup_append]
      refine ⟨T.nodup, by simp, ?_⟩
      rintro a ha b hb rfl
      simp at hb
      subst hb
      exact not_mem_of_lookup _ e ha

/-- The table with the files and contents of the rendered map. -/
def renamed (S C : List Int) (c : MapCtx) : MapCtx := { c with
  sources := (List.range c.sources.length).map fun i => (S[i]?, i, C[i]?) }

theorem lookup_range {S C : List Int} (hS : S.Nodup) {i : Nat} (hi : i < S.length) : ∀ (k : Nat), k ≤ S.length →
    ((List.range k).map fun i => (S[i]?, i, C[i]?)).lookup S[i]? = if i < k then some (i, C[i]?) else none
  | 0, _ => by simp
  | k + 1, hk => by
    rw [List.range_succ, List.map_append, List.lookup_append, lookup_range hS hi k (by omega)]
    by_cases h : i < k
    · rw [if_pos h, if_pos (by omega)]; rfl
    · rw [if_neg h, Option.none_or]
      simp only [List.map_cons, List.map_nil, List.lookup]
      by_cases hik : i = k
      · subst hik; simp
      · rw [if_neg (by omega)]
        have : (S[i]? == S[k]?) = false := by
          have hn : S[i]? ≠ S[k]? := by
            intro h
            exact hik ((List.getElem?_inj hi hS).1 h)
          simpa using hn
        rw [this]

theorem renamed_ensure {S C : List Int} (hS : S.Nodup) {c c' : MapCtx} {s o : Option Int} {i : Nat}
    (h : Ensured c s o i c') (hl : c'.sources.length ≤ S.length) :
    (renamed S C c).ensureSource S[i]? C[i]? = (i, renamed S C c') := by
  cases h with
  | old hi =>
    unfold MapCtx.ensureSource renamed
    dsimp only
    rw [lookup_range hS (by omega) _ hl, if_pos hi]
  | new _ =>
    rw [List.length_append, List.length_singleton] at hl
    unfold MapCtx.ensureSource renamed
    dsimp only
    rw [lookup_range hS (by omega) _ (by omega), if_neg (by omega)]
    simp [List.range_succ]

/-! ## Reading what was written -/

/-- The segment of an attributed line. -/
def firstSeg (c : MapCtx) (i k : Nat) : Str :=
  ['A'] ++ (vlqEncode ((i : Int) - c.source) ++ (vlqEncode ((k : Int) - c.origLine) ++ ['A']))

theorem firstSeg_leads (c : MapCtx) (i k : Nat) :
    ';' ∉ firstSeg c i k ∧ leads (cut ',' (firstSeg c i k)) = some [[0, (i : Int) - c.source, (k : Int) - c.origLine]] := by
  have h := C21_no_separator ((i : Int) - c.source)
  have h' := C21_no_separator ((k : Int) - c.origLine)
  refine ⟨by simp [firstSeg, h, h'], ?_⟩
  rw [cut_of_not_mem (by simp [firstSeg, h, h'])]
  have : lead 3 (firstSeg c i k) = some [0, (i : Int) - c.source, (k : Int) - c.origLine] :=
    (lead_iff _ _ _).2 (.more (by decide +kernel) (.more (vlqEncode_fields _) (.more (vlqEncode_fields _) (.enough _))))
  simp [leads, this]

/-- The sums that a reader has. -/
def sumsOf (c : MapCtx) : Int × Int := (c.source, c.origLine)

theorem ensured_same {c c' : MapCtx} {s o : Option Int} {i : Nat} (h : Ensured c s o i c') :
    c'.source = c.source ∧ c'.origLine = c.origLine ∧ c'.unfinished = c.unfinished ∧ i < c'.sources.length ∧
      c.sources.length ≤ c'.sources.length := by
  cases h with
  | old h => exact ⟨rfl, rfl, rfl, h, Nat.le_refl _⟩
  | new h => exact ⟨rfl, rfl, rfl, by simp, by simp⟩

/-- An attributed line. -/
theorem source_line {c c' : MapCtx} (hu : c.unfinished = 0) {l : Str} (hl : Lined l) (h0 : l ≠ []) {s o : Option Int}
    {k i : Nat} (he : c.ensureSource s o = (i, c')) (h1 : c'.source = c.source) (h2 : c'.origLine = c.origLine)
    (h3 : c'.unfinished = c.unfinished) :
    lineMapping c (l, some (s, o, k)) = (firstSeg c i k ++ List.replicate (numberOfLines l) ';',
      { c' with source := i, unfinished := unfinishedLines l, origLine := k }) := by
  have e : l.isEmpty = false := by simpa using h0
  simp only [lineMapping, LSource.mappings, LSource.new, e, Bool.false_eq_true, if_false, he]
  have hh : headSeg c' i k = firstSeg c i k := by
    simp [headSeg, firstSeg, h1, h2, h3, hu]
  rw [hh]
  rcases hl with ⟨x, rfl, hx⟩ | hn
  · obtain ⟨f1, f2⟩ := nl_facts hx
    simp [f1, f2]
  · have hz : numberOfLines l = 0 := List.count_eq_zero.2 hn
    have hb : unfinishedLines l ≠ 0 := by
      intro h
      rcases unfinished_zero.1 h with h | h
      · exact h0 h
      · exact hn (List.mem_of_getLast? h)
    simp [hz, hb]

/-- A line that is not attributed. -/
theorem code_line {c : MapCtx} (hu : c.unfinished = 0) {l : Str} (hl : Lined l) :
    lineMapping c (l, none) = ((if unfinishedLines l = 0 then [] else ['A']) ++ List.replicate (numberOfLines l) ';',
      { c with unfinished := unfinishedLines l }) := by
  unfold lineMapping codeMappings
  rcases hl with ⟨x, rfl, hx⟩ | hn
  · obtain ⟨f1, f2⟩ := nl_facts hx
    simp [f1, f2]
  · have hz : numberOfLines l = 0 := List.count_eq_zero.2 hn
    simp only [hz, hu]
    by_cases h : unfinishedLines l = 0
    · simp [h]
    · simp [h, show 0 < unfinishedLines l by omega]

theorem empty_line (c : MapCtx) (hu : c.unfinished = 0) (x : Option (Option Int × Option Int × Nat)) :
    lineMapping c ([], x) = ([], c) := by
  cases x with
  | none =>
    simp only [lineMapping, codeMappings]
    have : unfinishedLines [] = 0 := rfl
    cases c
    simp_all [numberOfLines]
  | some x => rfl

theorem low_nat {k : Nat} (h : k < 2 ^ 32) : low (k : Int) = k := by unfold low; omega

/-- One line read back. -/
theorem one_back {S C : List Int} (hS : S.Nodup) (h32 : S.length ≤ 2 ^ 32) (x : TLine) (c : MapCtx)
    (prev' : Option (Option Int × Option Int × Nat)) (hl : Lined x.1) (hu : c.unfinished = 0) (T : Tabled c)
    (hlen : (lineMapping c x).2.sources.length ≤ S.length)
    (hb : ∀ s o k, x.2 = some (s, o, k) → k < 2 ^ 32) (hp : x.2 = none → isBlank x.1 = true → prev' = none) :
    ∃ seg xss, (lineMapping c x).1 = seg ++ List.replicate (numberOfLines x.1) ';' ∧ ';' ∉ seg ∧
      leads (cut ',' seg) = some xss ∧
      lineMapping (renamed S C c) (x.1, readLine S C (sumsOf c) xss prev' x.1) =
        ((lineMapping c x).1, renamed S C (lineMapping c x).2) ∧
      (Ended x.1 → xss.foldl summed (sumsOf c) = sumsOf (lineMapping c x).2 ∧ (lineMapping c x).2.unfinished = 0 ∧
        (nextOf x.2 = none → nextOf (readLine S C (sumsOf c) xss prev' x.1) = none)) ∧
      Tabled (lineMapping c x).2 ∧ c.sources.length ≤ (lineMapping c x).2.sources.length := by
  obtain ⟨l, x⟩ := x
  dsimp only at hl hp hb ⊢
  have hur : (renamed S C c).unfinished = 0 := hu
  by_cases h0 : l = []
  · subst h0
    rw [empty_line c hu]
    refine ⟨[], [[]], rfl, by simp, rfl, empty_line _ hur _, ?_, T, Nat.le_refl _⟩
    rintro ⟨x, hx, -⟩
    simp at hx
  cases x with
  | none =>
    have hr : ∀ xss, firstSums (sumsOf c) xss = none → readLine S C (sumsOf c) xss prev' l = none := by
      intro xss h
      unfold readLine
      rw [h]
      by_cases hbl : isBlank l = true
      · simp [hp rfl hbl]
      · simp [hbl]
    rw [code_line hu hl] at hlen ⊢
    refine ⟨_, if unfinishedLines l = 0 then [[]] else [[0]], rfl, ?_, ?_, ?_, ?_, ?_, Nat.le_refl _⟩
    · split <;> simp
    · split <;> decide +kernel
    · rw [hr _ (by split <;> rfl), code_line hur hl]
      rfl
    · rintro ⟨y, rfl, hy⟩
      rw [(nl_facts hy).1]
      refine ⟨rfl, rfl, fun _ => ?_⟩
      rw [hr _ rfl]
      rfl
    · exact ⟨T.bound, T.nodup⟩
  | some x =>
    obtain ⟨s, o, k⟩ := x
    obtain ⟨he, hT⟩ := T.ensured s o
    obtain ⟨e1, e2, e3, e4, e5⟩ := ensured_same he
    have hk := hb s o k rfl
    generalize hc : c.ensureSource s o = p at *
    obtain ⟨i, c'⟩ := p
    dsimp only at he hT e1 e2 e3 e4 e5
    rw [source_line hu hl h0 hc e1 e2 e3] at hlen ⊢
    dsimp only at hlen
    obtain ⟨f1, f2⟩ := firstSeg_leads c i k
    have hr : readLine S C (sumsOf c) [[0, (i : Int) - c.source, (k : Int) - c.origLine]] prev' l =
        some (S[i]?, C[i]?, k) := by
      have a1 : ((c.source : Int) + ((i : Int) - c.source)) = (i : Int) := by omega
      have a2 : ((c.origLine : Int) + ((k : Int) - c.origLine)) = (k : Int) := by omega
      simp only [readLine, firstSums, sumsOf, summed, List.length_cons, a1, a2]
      simp [low_nat hk, low_nat (show i < 2 ^ 32 by omega)]
    refine ⟨_, _, rfl, f1, f2, ?_, ?_, ⟨hT.bound, hT.nodup⟩, e5⟩
    · rw [hr, source_line hur hl h0 (renamed_ensure hS he hlen) e1 e2 e3]
      rfl
    · rintro ⟨y, rfl, hy⟩
      rw [(nl_facts hy).1]
      refine ⟨?_, rfl, fun h => by simp [nextOf] at h⟩
      simp only [List.foldl_cons, List.foldl_nil, summed, sumsOf]
      exact Prod.ext (by dsimp only; omega) (by dsimp only; omega)

/-- A blank line is left alone only behind a line left alone. -/
def Stays : Option (Option Int × Option Int × Nat) → List TLine → Prop
  | _, [] => True
  | prev, x :: L => (x.2 = none → isBlank x.1 = true → prev = none) ∧ Stays (nextOf x.2) L

theorem readTLines_stays {S C : List Int} : ∀ (ls : List Str) (a : Int × Int) (n : List (List (List Int)))
    (prev : Option (Option Int × Option Int × Nat)), Stays prev (readTLines S C a n prev ls)
  | [], _, _, _ => trivial
  | l :: ls, a, n, prev => by
    refine ⟨fun h hb => ?_, readTLines_stays ls _ _ _⟩
    simp only [readLine, hb, if_true] at h
    exact (Option.or_eq_none_iff.1 h).2

theorem linesMapping_tabled : ∀ (L : List TLine) (c : MapCtx), Tabled c → Tabled (linesMapping c L).2 ∧
    c.sources.length ≤ (linesMapping c L).2.sources.length
  | [], c, T => ⟨T, Nat.le_refl _⟩
  | (l, x) :: L, c, T => by
    have h : Tabled (lineMapping c (l, x)).2 ∧ c.sources.length ≤ (lineMapping c (l, x)).2.sources.length := by
      cases x with
      | none =>
        unfold lineMapping codeMappings
        dsimp only
        split <;> exact ⟨⟨T.bound, T.nodup⟩, Nat.le_refl _⟩
      | some x =>
        obtain ⟨s, o, k⟩ := x
        unfold lineMapping LSource.mappings
        dsimp only
        split
        · exact ⟨T, Nat.le_refl _⟩
        · obtain ⟨he, hT⟩ := T.ensured s o
          exact ⟨⟨hT.bound, hT.nodup⟩, (ensured_same he).2.2.2.2⟩
    obtain ⟨h1, h2⟩ := linesMapping_tabled L _ h.1
    exact ⟨h1, Nat.le_trans h.2 h2⟩

/-- All lines read back. -/
theorem lines_back {S C : List Int} (hS : S.Nodup) (h32 : S.length ≤ 2 ^ 32) : ∀ (L : List TLine) (c : MapCtx)
    (prev prev' : Option (Option Int × Option Int × Nat)), L ≠ [] → CodeLines (L.map Prod.fst) → c.unfinished = 0 →
    Tabled c → (linesMapping c L).2.sources.length ≤ S.length → (∀ l s o k, (l, some (s, o, k)) ∈ L → k < 2 ^ 32) →
    Stays prev L → (prev = none → prev' = none) →
    ∃ n, Each (fun m xss => leads (cut ',' m) = some xss) (splitDrop ';' (linesMapping c L).1) n ∧
      linesMapping (renamed S C c) (readTLines S C (sumsOf c) n prev' (L.map Prod.fst)) =
        ((linesMapping c L).1, renamed S C (linesMapping c L).2) ∧
      (splitDrop ';' (linesMapping c L).1).length = L.length
  | [], _, _, _, h, _, _, _, _, _, _, _ => absurd rfl h
  | [x], c, prev, prev', _, hls, hu, T, hlen, hb, hs, hp => by
    obtain ⟨seg, xss, g1, g2, g3, g4, -, -, -⟩ := one_back (C := C) hS h32 x c prev' (CodeLines.lined hls) hu T hlen
      (fun s o k e => hb x.1 s o k (by rw [← e]; simp)) (fun h1 h2 => hp (hs.1 h1 h2))
    have hz : numberOfLines x.1 = 0 := List.count_eq_zero.2 hls
    rw [hz, List.replicate_zero, List.append_nil] at g1
    have hd : splitDrop ';' (linesMapping c [x]).1 = [seg] := by
      rw [linesMapping, linesMapping, List.append_nil, g1, splitDrop_of_not_mem g2]
    refine ⟨[xss], ?_, ?_, ?_⟩
    · rw [hd]
      exact .cons g3 .nil
    · simp only [List.map_cons, List.map_nil, readTLines, linesMapping, List.headD_cons, g4]
    · rw [hd]; rfl
  | x :: y :: L, c, prev, prev', _, hls, hu, T, hlen, hb, hs, hp => by
    have hend : Ended x.1 := hls.cons.1
    have hmono : (lineMapping c x).2.sources.length ≤ (linesMapping c (x :: y :: L)).2.sources.length := by
      have := linesMapping_tabled [x] c T
      exact (linesMapping_tabled (y :: L) (lineMapping c x).2 this.1).2
    obtain ⟨seg, xss, g1, g2, g3, g4, g5, g6, g7⟩ := one_back (C := C) hS h32 x c prev' (.inl hend) hu T
      (Nat.le_trans hmono hlen) (fun s o k e => hb x.1 s o k (by rw [← e]; simp)) (fun h1 h2 => hp (hs.1 h1 h2))
    obtain ⟨k1, k2, k3⟩ := g5 hend
    obtain ⟨n, n1, n2, n3⟩ := lines_back (S := S) (C := C) hS h32 (y :: L) (lineMapping c x).2 (nextOf x.2)
      (nextOf (readLine S C (sumsOf c) xss prev' x.1)) (by simp) hls.cons.2 k2 g6 hlen
      (fun l s o k h => hb l s o k (List.mem_cons_of_mem _ h)) hs.2 k3
    have h1 : numberOfLines x.1 = 1 := by
      obtain ⟨z, hz, hz'⟩ := hend
      rw [hz]; exact (nl_facts hz').2
    rw [h1] at g1
    have hd : splitDrop ';' (linesMapping c (x :: y :: L)).1 =
        seg :: splitDrop ';' (linesMapping (lineMapping c x).2 (y :: L)).1 := by
      rw [linesMapping, g1]
      dsimp only
      rw [List.append_assoc]
      change splitDrop ';' (seg ++ ';' :: (linesMapping (lineMapping c x).2 (y :: L)).1) = _
      rw [splitDrop_append_sep g2]
    refine ⟨xss :: n, ?_, ?_, by rw [hd, List.length_cons, n3]; rfl⟩
    · rw [hd]
      exact .cons g3 n1
    · rw [List.map_cons, readTLines, linesMapping]
      dsimp only [List.headD_cons, List.tail_cons]
      rw [g4, k1]
      dsimp only
      rw [n2]
      rfl

/-! ## The files -/

theorem readTLines_files {S C : List Int} : ∀ (ls : List Str) (a : Int × Int) (n : List (List (List Int)))
    (prev : Option (Option Int × Option Int × Nat)), (∀ i o k, prev = some (some i, o, k) → i ∈ S) →
    ∀ l i o k, (l, some (some i, o, k)) ∈ readTLines S C a n prev ls → i ∈ S
  | [], _, _, _, _, _, _, _, _, h => by simp [readTLines] at h
  | l :: ls, a, n, prev, hp, l', i, o, k, h => by
    have hr : ∀ i o k, readLine S C a (n.headD []) prev l = some (some i, o, k) → i ∈ S := by
      intro i o k h
      unfold readLine at h
      rcases Option.or_eq_some_iff.1 h with h | h
      · rw [Option.map_eq_some_iff] at h
        obtain ⟨p, -, h⟩ := h
        simp only [Prod.mk.injEq] at h
        exact List.mem_of_getElem? h.1
      · split at h
        · exact hp i o k h.2
        · simp at h
    rcases List.mem_cons.1 h with h | h
    · simp only [Prod.mk.injEq] at h
      exact hr i o k h.2.symm
    · refine readTLines_files ls _ _ _ (fun i o k e => ?_) l' i o k h
      unfold nextOf at e
      rw [Option.map_eq_some_iff] at e
      obtain ⟨p, h1, h2⟩ := e
      simp only [Prod.mk.injEq] at h2
      obtain ⟨p1, p2, p3⟩ := p
      dsimp only at h2
      exact hr i p2 p3 (by rw [h1, h2.1])

theorem linesMapping_files {P : Option Int → Prop} : ∀ (L : List TLine) (c : MapCtx),
    (∀ l s o k, (l, some (s, o, k)) ∈ L → P s) → (∀ p ∈ c.sources, P p.1) → ∀ p ∈ (linesMapping c L).2.sources, P p.1
  | [], c, _, h => h
  | (l, x) :: L, c, hL, h => by
    refine linesMapping_files L _ (fun l s o k h => hL l s o k (List.mem_cons_of_mem _ h)) ?_
    cases x with
    | none =>
      unfold lineMapping codeMappings
      dsimp only
      split <;> exact h
    | some x =>
      obtain ⟨s, o, k⟩ := x
      unfold lineMapping LSource.mappings
      dsimp only
      split
      · exact h
      · dsimp only [LSource.new, MapCtx.ensureSource]
        split
        · exact h
        · intro p hp
          rcases List.mem_append.1 hp with hp | hp
          · exact h p hp
          · cases List.mem_singleton.1 hp
            exact hL l s o k (by simp)

theorem nodup_getD {l : List (Option Int × Nat × Option Int)} (h : (l.map Prod.fst).Nodup)
    (hn : ∀ p ∈ l, p.1 ≠ some (-1)) : (l.map fun p => p.1.getD (-1)).Nodup := by
  induction l with
  | nil => simp
  | cons x l ih =>
    rw [List.map_cons, List.nodup_cons] at h ⊢
    refine ⟨fun hm => h.1 ?_, ih h.2 (fun p hp => hn p (by simp [hp]))⟩
    obtain ⟨p, hp, e⟩ := List.mem_map.1 hm
    refine List.mem_map.2 ⟨p, hp, ?_⟩
    have h1 := hn x (by simp)
    have h2 := hn p (by simp [hp])
    obtain ⟨x1, x2⟩ := x
    obtain ⟨p1, p2⟩ := p
    dsimp only at e h1 h2 ⊢
    cases x1 <;> cases p1 <;> simp_all

theorem readTLines_fst {S C : List Int} : ∀ (ls : List Str) (a : Int × Int) (n : List (List (List Int)))
    (prev : Option (Option Int × Option Int × Nat)), (readTLines S C a n prev ls).map Prod.fst = ls
  | [], _, _, _ => rfl
  | l :: ls, _, _, _ => by rw [readTLines, List.map_cons, readTLines_fst ls]

theorem map_range_getD (l : List Int) : (List.range l.length).map (fun i => l[i]?.getD (-1)) = l := by
  apply List.ext_getElem
  · simp
  · intro i h1 h2
    simp [List.getElem?_eq_getElem h2]

theorem filterMap_range (l : List Int) : ∀ (k : Nat), (List.range k).filterMap (fun i => l[i]?) = l.take k
  | 0 => by simp
  | k + 1 => by
    rw [List.range_succ, List.filterMap_append, filterMap_range l k, List.take_add_one]
    cases h : l[k]? <;> simp [h]

/-! ## The claim -/

/-- From the lines as read, if the files written are distinct. -/
theorem settles_distinct (code : Str) (S C : List Int) (mappings : Str) (m : Slm) (f : Option Int) (n : List (List (List Int)))
    (K : KeptLines m.reverse (readTLines S C (0, 1) n none (splitKeep '\n' code)))
    (hnd : (slmToStringWithSourceMap m f).map.sources.Nodup)
    (hb : ∀ l s o k, (l, some (s, o, k)) ∈ readTLines S C (0, 1) n none (splitKeep '\n' code) → k < 2 ^ 32)
    (h32 : S.length < 2 ^ 32) :
    (slmToStringWithSourceMap m f).source = code ∧
    ∃ m', slmFromString code (slmToStringWithSourceMap m f).map.sources (slmToStringWithSourceMap m f).map.sourcesContent
        (slmToStringWithSourceMap m f).map.mappings = .ok m' ∧
      slmToStringWithSourceMap m' f = slmToStringWithSourceMap m f := by
  generalize hL : readTLines S C (0, 1) n none (splitKeep '\n' code) = L at K hb
  have hfst : L.map Prod.fst = splitKeep '\n' code := by rw [← hL]; exact readTLines_fst _ _ _ _
  have htext : slmText m = code := by
    have := K.text
    rw [List.reverse_reverse] at this
    rw [this, hfst, splitKeep_flatten]
  have hrender : slmMappings MapCtx.new m = linesMapping MapCtx.new L := by
    have := K.render MapCtx.new
    rwa [List.reverse_reverse] at this
  have T0 : Tabled MapCtx.new := ⟨fun s i o h => by simp [MapCtx.new] at h, by simp [MapCtx.new]⟩
  have T := (linesMapping_tabled L MapCtx.new T0).1
  have hof : ∀ p ∈ (linesMapping MapCtx.new L).2.sources, ∀ i, p.1 = some i → i ∈ S := by
    refine linesMapping_files (P := fun s => ∀ i, s = some i → i ∈ S) L MapCtx.new (fun l s o k hm i e => ?_)
      (fun p hp => by simp [MapCtx.new] at hp)
    subst e
    rw [← hL] at hm
    exact readTLines_files _ _ _ _ (fun _ _ _ e => by cases e) l i o k hm
  have hcount : (linesMapping MapCtx.new L).2.sources.length ≤ S.length + 1 := by
    have := List.Nodup.length_le_of_subset (l₂ := none :: S.map some) T.nodup (fun s hs => by
      obtain ⟨p, hp, rfl⟩ := List.mem_map.1 hs
      cases e : p.1 with
      | none => simp
      | some i => simpa using hof p hp i e)
    simpa using this
  generalize hr : slmToStringWithSourceMap m f = r at *
  have hr' := hr
  unfold slmToStringWithSourceMap at hr'
  rw [hrender, htext] at hr'
  dsimp only at hr'
  have hsrc : r.map.sources = (linesMapping MapCtx.new L).2.sources.map fun p => p.1.getD (-1) := by rw [← hr']
  have hcon : r.map.sourcesContent = (linesMapping MapCtx.new L).2.sources.filterMap fun p => p.2.2 := by rw [← hr']
  have hmap : r.map.mappings = (linesMapping MapCtx.new L).1 := by rw [← hr']
  have hlen : r.map.sources.length = (linesMapping MapCtx.new L).2.sources.length := by rw [hsrc, List.length_map]
  obtain ⟨n', n1, n2, n3⟩ := lines_back (S := r.map.sources) (C := r.map.sourcesContent) hnd (by omega) L MapCtx.new none none
    (by intro e; rw [e] at hfst; exact splitKeep_ne_nil _ _ hfst.symm)
    (by rw [hfst]; exact codeLines_splitKeep code) rfl T0 (by rw [hlen]; exact Nat.le_refl _)
    hb
    (by rw [← hL]; exact readTLines_stays _ _ _ _) (fun _ => rfl)
  have n1' : Each (fun m xss => leads (cut ',' m) = some xss)
      ((splitDrop ';' r.map.mappings).take (splitKeep '\n' code).length) n' := by
    rw [hmap, List.take_of_length_le]
    · exact n1
    · rw [n3, ← hfst, List.length_map]; exact Nat.le_refl _
  obtain ⟨m', e', K'⟩ := slmFromString_tlines code r.map.sources r.map.sourcesContent r.map.mappings n' n1'
  refine ⟨by rw [← hr'], m', e', ?_⟩
  have hren : renamed r.map.sources r.map.sourcesContent MapCtx.new = MapCtx.new := rfl
  rw [hren, hfst] at n2
  have r1 : slmMappings MapCtx.new m' = ((linesMapping MapCtx.new L).1,
      renamed r.map.sources r.map.sourcesContent (linesMapping MapCtx.new L).2) := by
    have := K'.render MapCtx.new
    rw [List.reverse_reverse] at this
    rw [this]
    exact n2
  have r2 : slmText m' = code := by
    have := K'.text
    rw [List.reverse_reverse] at this
    rw [this, readTLines_fst, splitKeep_flatten]
  unfold slmToStringWithSourceMap
  rw [r1, r2]
  dsimp only [renamed]
  have f1 : ((List.range (linesMapping MapCtx.new L).2.sources.length).map fun i =>
      (r.map.sources[i]?, i, r.map.sourcesContent[i]?)).map (fun p => p.1.getD (-1)) =
      (linesMapping MapCtx.new L).2.sources.map fun p => p.1.getD (-1) := by
    rw [List.map_map, ← hlen]
    exact (map_range_getD _).trans hsrc
  have f2 : ((List.range (linesMapping MapCtx.new L).2.sources.length).map fun i =>
      (r.map.sources[i]?, i, r.map.sourcesContent[i]?)).filterMap (fun p => p.2.2) =
      (linesMapping MapCtx.new L).2.sources.filterMap fun p => p.2.2 := by
    rw [List.filterMap_map, ← hlen]
    refine (filterMap_range _ _).trans ?_
    rw [List.take_of_length_le, hcon]
    rw [hcon, hlen]
    exact List.length_filterMap_le _ _
  rw [f1, f2]
  exact hr'

/-- From the lines as read. -/
theorem settles (code : Str) (S C : List Int) (mappings : Str) (m : Slm) (f : Option Int) (n : List (List (List Int)))
    (K : KeptLines m.reverse (readTLines S C (0, 1) n none (splitKeep '\n' code))) (hS : (-1) ∉ S)
    (hb : ∀ l s o k, (l, some (s, o, k)) ∈ readTLines S C (0, 1) n none (splitKeep '\n' code) → k < 2 ^ 32)
    (h32 : S.length < 2 ^ 32) :
    (slmToStringWithSourceMap m f).source = code ∧
    ∃ m', slmFromString code (slmToStringWithSourceMap m f).map.sources (slmToStringWithSourceMap m f).map.sourcesContent
        (slmToStringWithSourceMap m f).map.mappings = .ok m' ∧
      slmToStringWithSourceMap m' f = slmToStringWithSourceMap m f := by
  refine settles_distinct code S C mappings m f n K ?_ hb h32
  generalize hL : readTLines S C (0, 1) n none (splitKeep '\n' code) = L at K hb
  have hrender : slmMappings MapCtx.new m = linesMapping MapCtx.new L := by
    have := K.render MapCtx.new
    rwa [List.reverse_reverse] at this
  have T := (linesMapping_tabled L MapCtx.new ⟨fun s i o h => by simp [MapCtx.new] at h, by simp [MapCtx.new]⟩).1
  have hof : ∀ p ∈ (linesMapping MapCtx.new L).2.sources, ∀ i, p.1 = some i → i ∈ S := by
    refine linesMapping_files (P := fun s => ∀ i, s = some i → i ∈ S) L MapCtx.new (fun l s o k hm i e => ?_)
      (fun p hp => by simp [MapCtx.new] at hp)
    subst e
    rw [← hL] at hm
    exact readTLines_files _ _ _ _ (fun _ _ _ e => by cases e) l i o k hm
  unfold slmToStringWithSourceMap
  rw [hrender]
  exact nodup_getD T.nodup fun p hp e => hS (hof p hp _ e)

/-- C87: a map read and rendered, then read and rendered again, is the same. Said of the nodes. -/
theorem C87_nodes_partial (code : Str) (S C : List Int) (mappings : Str) (m : Slm) (f : Option Int)
    (h : slmFromString code S C mappings = .ok m) (hS : (-1) ∉ S) (h32 : S.length < 2 ^ 32)
    (hb : ∀ n, .source n ∈ m → n.startLine + n.numLines < 2 ^ 32) :
    (slmToStringWithSourceMap m f).source = code ∧
    ∃ m', slmFromString code (slmToStringWithSourceMap m f).map.sources (slmToStringWithSourceMap m f).map.sourcesContent
        (slmToStringWithSourceMap m f).map.mappings = .ok m' ∧
      slmToStringWithSourceMap m' f = slmToStringWithSourceMap m f := by
  obtain ⟨n, hn⟩ : ∃ n, Each (fun m xss => leads (cut ',' m) = some xss)
      ((splitDrop ';' mappings).take (splitKeep '\n' code).length) n := by
    unfold slmFromString at h
    split at h
    · cases h
    · rename_i st rest e
      exact lfLines_reads _ _ _ e
  obtain ⟨m1, e1, K⟩ := slmFromString_tlines code S C mappings n hn
  rw [h] at e1
  cases e1
  exact settles code S C mappings m f n K hS (fun l s o k hm => Nat.lt_of_le_of_lt
    (K.bound (2 ^ 32 - 1) (fun n hn => by have := hb n (by simpa using hn); omega) l s o k hm) (by omega)) h32

theorem readTLines_bound {S C : List Int} {B : Nat} : ∀ (ls : List Str) (a : Int × Int) (n : List (List (List Int)))
    (prev : Option (Option Int × Option Int × Nat)), (∀ o, some o ∈ lineSums a n → low o.2 + ls.length ≤ B) →
    (∀ s o k, prev = some (s, o, k) → k + ls.length ≤ B) →
    ∀ l s o k, (l, some (s, o, k)) ∈ readTLines S C a n prev ls → k < B
  | [], _, _, _, _, _, _, _, _, _, h => by simp [readTLines] at h
  | l :: ls, a, n, prev, hn, hp, l', s, o, k, h => by
    have hr : ∀ s o k, readLine S C a (n.headD []) prev l = some (s, o, k) → k + (l :: ls).length ≤ B := by
      intro s o k h
      unfold readLine at h
      rcases Option.or_eq_some_iff.1 h with h | h
      · rw [Option.map_eq_some_iff] at h
        obtain ⟨p, h1, h2⟩ := h
        simp only [Prod.mk.injEq] at h2
        rw [← h2.2.2]
        refine hn p ?_
        cases n with
        | nil => simp [firstSums] at h1
        | cons x n => simp only [List.headD_cons] at h1; simp [lineSums, h1]
      · split at h
        · exact hp s o k h.2
        · simp at h
    rcases List.mem_cons.1 h with h | h
    · simp only [Prod.mk.injEq] at h
      have := hr s o k h.2.symm
      rw [List.length_cons] at this
      omega
    · refine readTLines_bound ls _ _ _ (fun p hp => ?_) (fun s o k e => ?_) l' s o k h
      · have := hn p (by
          cases n with
          | nil => simp [lineSums] at hp
          | cons x n => simpa [lineSums] using Or.inr hp)
        rw [List.length_cons] at this
        omega
      · unfold nextOf at e
        rw [Option.map_eq_some_iff] at e
        obtain ⟨⟨p1, p2, p3⟩, h1, h2⟩ := e
        simp only [Prod.mk.injEq] at h2
        have := hr p1 p2 p3 h1
        rw [List.length_cons] at this
        omega

/-- C87: a map read and rendered, then read and rendered again, is the same. Whatever the numbers in the map, if the lines
that it names leave room for the lines of the code within 32 bits. -/
theorem C87_settles_partial (code : Str) (S C : List Int) (mappings : Str) (f : Option Int) (ls : List (List Char))
    (n : List (List (List Int))) (hls : IsLines '\n' code ls) (hn : Numbered ls.length mappings n)
    (hb : ∀ o, some o ∈ lineSums (0, 1) n → low o.2 + ls.length ≤ 2 ^ 32) (hS : (-1) ∉ S) (h32 : S.length < 2 ^ 32) :
    ∃ m, slmFromString code S C mappings = .ok m ∧ (slmToStringWithSourceMap m f).source = code ∧
      ∃ m', slmFromString code (slmToStringWithSourceMap m f).map.sources (slmToStringWithSourceMap m f).map.sourcesContent
        (slmToStringWithSourceMap m f).map.mappings = .ok m' ∧
      slmToStringWithSourceMap m' f = slmToStringWithSourceMap m f := by
  have hls' : ls = splitKeep '\n' code := IsLines.unique '\n' code ls hls
  subst hls'
  obtain ⟨m, e, K⟩ := slmFromString_tlines code S C mappings n
    (by rw [← cut_eq]; exact each_imp (fun _ _ => (leads_iff _ _).2) hn)
  exact ⟨m, e, settles code S C mappings m f n K hS
    (readTLines_bound _ _ _ _ hb (fun s o k e => by cases e)) h32⟩

/-- C87: also with files named -1 and missing files, if the files of the first rendering are distinct. -/
theorem C87_distinct_partial (code : Str) (S C : List Int) (mappings : Str) (f : Option Int) (ls : List (List Char))
    (n : List (List (List Int))) (hls : IsLines '\n' code ls) (hn : Numbered ls.length mappings n)
    (hb : ∀ o, some o ∈ lineSums (0, 1) n → low o.2 + ls.length ≤ 2 ^ 32) (h32 : S.length < 2 ^ 32) :
    ∃ m, slmFromString code S C mappings = .ok m ∧ (slmToStringWithSourceMap m f).source = code ∧
      ((slmToStringWithSourceMap m f).map.sources.Nodup →
      ∃ m', slmFromString code (slmToStringWithSourceMap m f).map.sources (slmToStringWithSourceMap m f).map.sourcesContent
        (slmToStringWithSourceMap m f).map.mappings = .ok m' ∧
      slmToStringWithSourceMap m' f = slmToStringWithSourceMap m f) := by
  have hls' : ls = splitKeep '\n' code := IsLines.unique '\n' code ls hls
  subst hls'
  obtain ⟨m, e, K⟩ := slmFromString_tlines code S C mappings n
    (by rw [← cut_eq]; exact each_imp (fun _ _ => (leads_iff _ _).2) hn)
  refine ⟨m, e, ?_, fun hnd => (settles_distinct code S C mappings m f n K hnd
    (readTLines_bound _ _ _ _ hb (fun s o k e => by cases e)) h32).2⟩
  have := K.text
  rw [List.reverse_reverse, readTLines_fst, splitKeep_flatten] at this
  exact this

/-- The two rendered maps, files, contents and mappings of each. -/
def twice (code : Str) (S C : List Int) (mappings : Str) : Option ((List Int × List Int × Str) × (List Int × List Int × Str)) :=
  (slmFromString code S C mappings).toOption.bind fun m =>
    let r := (slmToStringWithSourceMap m none).map
    (slmFromString code r.sources r.sourcesContent r.mappings).toOption.map fun m' =>
      let r' := (slmToStringWithSourceMap m' none).map
      ((r.sources, r.sourcesContent, r.mappings), (r'.sources, r'.sourcesContent, r'.mappings))

/-- With a file named -1 beside one that is missing, the two are written alike and read as one. -/
theorem C87_not_minus_one : twice "a\nb".toList [-1] [] "AAAA;AOAA".toList =
    some (([-1, -1], [], "AAAA;ACAA".toList), ([-1], [], "AAAA;AAAA".toList)) := by
  decide +kernel

/-- The line after line 2^32 - 1 is written as 2^32 and read as 0. -/
theorem C87_not_line : twice "a\n\nb\nc".toList [5] [] "AA8/////HA".toList =
    some (([5], [], "AA8/////HA;AACA;;A".toList), ([5], [], "AA8/////HA;AA//////HA;;A".toList)) := by
  decide +kernel

/-- A file named -1 and none that is missing. -/
example : twice "a\nb".toList [-1, 4] [] "AAAA;ACAA".toList =
    some (([-1, 4], [], "AAAA;ACAA".toList), ([-1, 4], [], "AAAA;ACAA".toList)) := by
  decide +kernel

/-! Non-trivial case: unattributed lines, a segment that is not the first, a file named twice, files without content, numbers
left over; the first rendering differs from what was read. -/

example : twice "a\n\nb\n \n\nc;\n".toList [8, 5, 8] [3] ";A,ACCA,AADA;;ADAA;C,ACEA;;AOAC;".toList =
    some (([5, 8], [3], ";AACA;;ACDA;ADEA;;".toList), ([5, 8], [3], ";AACA;;ACDA;ADEA;;".toList)) := by
  decide +kernel

/-- The numbers. -/
def c87Numbers : List (List (List Int)) := [[[]], [[0], [0, 1, 1], [0, 0, -1]], [[]], [[0, -1, 0]], [[1], [0, 1, 2]], [[]], [[0, 7, 0]]]

theorem c87_numbered : Numbered 7 ";A,ACCA,AADA;;ADAA;C,ACEA;;AOAC;".toList c87Numbers := by
  have h : ∀ (ms : List Str) (n : List (List (List Int))), ms.map (fun m => leads (cut ',' m)) = n.map some →
      Each (fun m xss => Each (Begins 3) (cut ',' m) xss) ms n := by
    intro ms
    induction ms with
    | nil =>
      intro n hn
      cases n with
      | nil => exact .nil
      | cons => simp at hn
    | cons m ms ih =>
      intro n hn
      cases n with
      | nil => simp at hn
      | cons x n =>
        simp only [List.map_cons, List.cons.injEq] at hn
        exact .cons ((leads_iff _ _).1 hn.1) (ih n hn.2)
  exact h _ _ (by decide +kernel)

example : ∃ m, slmFromString "a\n\nb\n \n\nc;\n".toList [8, 5, 8] [3] ";A,ACCA,AADA;;ADAA;C,ACEA;;AOAC;".toList = .ok m ∧
    (slmToStringWithSourceMap m none).source = "a\n\nb\n \n\nc;\n".toList ∧
    ∃ m', slmFromString "a\n\nb\n \n\nc;\n".toList (slmToStringWithSourceMap m none).map.sources
        (slmToStringWithSourceMap m none).map.sourcesContent (slmToStringWithSourceMap m none).map.mappings = .ok m' ∧
      slmToStringWithSourceMap m' none = slmToStringWithSourceMap m none := by
  refine C87_settles_partial _ _ _ _ _ _ c87Numbers (isLines_splitKeep '\n' _) c87_numbered ?_ (by decide) (by decide)
  have : ∀ o ∈ lineSums (0, 1) c87Numbers, ∀ p, o = some p → low p.2 + 7 ≤ 2 ^ 32 := by decide +kernel
  exact fun o ho => this _ ho o rfl

end WS
