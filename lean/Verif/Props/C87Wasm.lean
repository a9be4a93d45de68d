import Verif.Props.C87
import Verif.Proofs.Wasm32Any
/-!
# C87: line maps settle after one reading, with the arithmetic of the program

The same of the functions of `Model/Wasm32.lean`, where line numbers are kept in 32 bits everywhere. Then no condition on
line numbers is needed: a node that goes on past line 2^32 - 1 is written with steps of one line, and these are read as
lines of the same node again.
-/

namespace WS
open Spec

/-! ## Line by line -/

/-- What a line goes with: file, content, line. -/
abbrev At := Option (Option Int × Option Int × Nat)

/-- The next line of a file. -/
def nextOf32 (x : At) : At := x.map fun y => (y.1, y.2.1, usize32 (y.2.2 + 1))

/-- The line goes on with a file. -/
def goesOn (prev : At) (s : Option Int) (k : Nat) : Bool := prev.map (fun y => (y.1, y.2.2)) == some (s, k)

theorem goesOn_iff {prev : At} {s : Option Int} {k : Nat} : goesOn prev s k = true ↔ ∃ o, prev = some (s, o, k) := by
  unfold goesOn
  cases prev with
  | none => simp
  | some p =>
    obtain ⟨p1, p2, p3⟩ := p
    simp only [Option.map_some, beq_iff_eq, Option.some.injEq, Prod.mk.injEq]
    constructor
    · rintro ⟨rfl, rfl⟩; exact ⟨p2, rfl, rfl, rfl⟩
    · rintro ⟨o, rfl, -, rfl⟩; exact ⟨rfl, rfl⟩

/-- The mappings of one line. -/
def lineMapping32 (prev : At) (c : MapCtx) : TLine → Str × MapCtx
  | (l, none) => codeMappings c l
  | (l, some (s, o, k)) =>
    if l = [] then ([], c)
    else if goesOn prev s k then ("AACA".toList ++ List.replicate (numberOfLines l) ';',
      { c with unfinished := unfinishedLines l, origLine := k })
    else LSource.mappings32 c (LSource.new l s o k)

/-- The mappings of several lines. -/
def linesMapping32 : At → MapCtx → List TLine → Str × MapCtx
  | _, c, [] => ([], c)
  | prev, c, x :: L => ((lineMapping32 prev c x).1 ++ (linesMapping32 (nextOf32 x.2) (lineMapping32 prev c x).2 L).1,
      (linesMapping32 (nextOf32 x.2) (lineMapping32 prev c x).2 L).2)

/-- What the line behind goes on with. -/
def lastAt : At → List TLine → At
  | prev, [] => prev
  | _, x :: L => lastAt (nextOf32 x.2) L

theorem lastAt_snoc : ∀ (L : List TLine) (prev : At) (x : TLine), lastAt prev (L ++ [x]) = nextOf32 x.2
  | [], _, _ => rfl
  | _ :: L, _, x => lastAt_snoc L _ x

theorem linesMapping32_snoc : ∀ (L : List TLine) (prev : At) (c : MapCtx) (x : TLine),
    linesMapping32 prev c (L ++ [x]) =
      ((linesMapping32 prev c L).1 ++ (lineMapping32 (lastAt prev L) (linesMapping32 prev c L).2 x).1,
        (lineMapping32 (lastAt prev L) (linesMapping32 prev c L).2 x).2)
  | [], _, _, _ => by simp [linesMapping32, lastAt]
  | y :: L, prev, c, x => by
    rw [List.cons_append, linesMapping32, linesMapping32_snoc L]
    simp only [linesMapping32, lastAt, List.append_assoc]

theorem slmMappings32_snoc : ∀ (m : Slm) (x : LNode) (c : MapCtx), slmMappings32 c (m ++ [x]) =
    ((slmMappings32 c m).1 ++ (x.mappings32 (slmMappings32 c m).2).1, (x.mappings32 (slmMappings32 c m).2).2)
  | [], x, c => by simp [slmMappings32]
  | y :: m, x, c => by
    rw [List.cons_append, slmMappings32, slmMappings32]
    dsimp only
    rw [slmMappings32_snoc m x]
    simp only [List.append_assoc]

theorem unfinished_pos {l : Str} (h : l ≠ []) (hn : '\n' ∉ l) : unfinishedLines l ≠ 0 := by
  intro e
  rcases unfinished_zero.1 e with e | e
  · exact h e
  · exact hn (List.mem_of_getLast? e)

/-- A source node with one line more. -/
theorem source_more32 (c : MapCtx) {n : LSource} (h1 : n.code ≠ []) (h2 : unfinishedLines n.code = 0)
    (h3 : n.numLines = numberOfLines n.code) {l : Str} (hl : Lined l) (h0 : l ≠ []) :
    LSource.mappings32 c (n.addCode l) = ((LSource.mappings32 c n).1 ++
      ("AACA".toList ++ List.replicate (numberOfLines l) ';'),
      { (LSource.mappings32 c n).2 with
        unfinished := unfinishedLines l, origLine := usize32 (n.startLine + n.numLines) }) := by
  have hpos := numberOfLines_pos_of_finished h1 h2
  rw [← h3] at hpos
  obtain ⟨k, hk⟩ : ∃ k, n.numLines = k + 1 := ⟨n.numLines - 1, by omega⟩
  have e1 : n.code.isEmpty = false := by simpa using h1
  have e2 : (n.code ++ l).isEmpty = false := by simp [h1]
  have es : ∀ a b : Str, a ++ List.flatten (List.replicate (k + 1) nextLineSeg) ++ b =
      a ++ List.flatten (List.replicate k nextLineSeg) ++ (nextLineSeg ++ b) := by
    intro a b
    rw [List.replicate_succ', List.flatten_append]; simp
  simp only [LSource.mappings32, LSource.addCode, e1, e2, Bool.false_eq_true, if_false, h2, if_true, hk]
  rcases hl with ⟨x, rfl, hx⟩ | hn
  · obtain ⟨f1, f2⟩ := nl_facts hx
    rw [unfinished_append (t := x ++ ['\n']) (by simp), f1, f2]
    simp only [if_true, Nat.add_sub_cancel, es, List.append_assoc]
    refine Prod.ext ?_ ?_
    · simp [nextLineSeg]
    · have : toUsize ((usize32 (n.startLine + (k + 1 + 1)) : Int) - 1) = usize32 (n.startLine + (k + 1)) := by
        rw [toUsize_low]; unfold low usize32; omega
      simp [this]
  · have hu : unfinishedLines (n.code ++ l) = unfinishedLines l := by
      have : n.code.getLast? = some '\n' := (unfinished_zero.1 h2).resolve_left h1
      obtain ⟨y, hy⟩ := List.getLast?_eq_some_iff.1 this
      rw [hy, List.append_assoc, unfinished_of_not_mem hn]
      exact unfinished_after_nl y l hn
    have hb := unfinished_pos h0 hn
    have hz : numberOfLines l = 0 := List.count_eq_zero.2 hn
    have : usize32 (toUsize ((usize32 (n.startLine + (k + 1)) : Int) - 1) + 1) = usize32 (n.startLine + (k + 1)) := by
      rw [toUsize_low]; unfold low usize32; omega
    rw [hu, hz]
    simp [hb, nextLineSeg, this]

/-! ## The reader -/

/-- The lines as read. -/
def readTLines32 (S C : List Int) : Int × Int → List (List (List Int)) → At → List Str → List TLine
  | _, _, _, [] => []
  | a, n, prev, l :: ls => (l, readLine S C a (n.headD []) prev l) ::
      readTLines32 S C ((n.headD []).foldl summed a) n.tail (nextOf32 (readLine S C a (n.headD []) prev l)) ls

/-- The nodes so far say the same as the lines. -/
structure KeptLines32 (rev : List LNode) (prev : At) (L : List TLine) : Prop where
  render : ∀ c, slmMappings32 c rev.reverse = linesMapping32 none c L
  last : lastAt none L = prev
  text : slmText rev.reverse = (L.map Prod.fst).flatten

/-- What the last node says of the next line. -/
def HeadSays32 : List LNode → Nat → At → Prop
  | [], _, prev => prev = none
  | .code s :: _, _, prev => prev = none ∧ s ≠ [] ∧ unfinishedLines s = 0
  | .source n :: _, nl, prev => n.code ≠ [] ∧ unfinishedLines n.code = 0 ∧ n.numLines = numberOfLines n.code ∧
      usize32 (n.startLine + n.numLines) = nl ∧ ∃ o, prev = some (n.source, o, nl)
  | _ :: _, _, _ => False

/-- A new node. -/
theorem KeptLines32.push {rev : List LNode} {prev : At} {L : List TLine} (K : KeptLines32 rev prev L) (x : LNode)
    (y : TLine) (h1 : ∀ c, x.mappings32 c = lineMapping32 prev c y) (h2 : x.text = y.1) :
    KeptLines32 (x :: rev) (nextOf32 y.2) (L ++ [y]) := by
  refine ⟨fun c => ?_, lastAt_snoc _ _ _, ?_⟩
  · rw [List.reverse_cons, slmMappings32_snoc, linesMapping32_snoc, K.render, h1, K.last]
  · rw [List.reverse_cons, slmText_snoc, K.text, h2]; simp

/-- The last node gets one line more. -/
theorem KeptLines32.more {rev : List LNode} {prev : At} {L : List TLine} {x x' : LNode}
    (K : KeptLines32 (x :: rev) prev L) (y : TLine)
    (h1 : ∀ c, x'.mappings32 c = ((x.mappings32 c).1 ++ (lineMapping32 prev (x.mappings32 c).2 y).1,
      (lineMapping32 prev (x.mappings32 c).2 y).2)) (h2 : x'.text = x.text ++ y.1) :
    KeptLines32 (x' :: rev) (nextOf32 y.2) (L ++ [y]) := by
  refine ⟨fun c => ?_, lastAt_snoc _ _ _, ?_⟩
  · have := K.render c
    rw [List.reverse_cons, slmMappings32_snoc] at this
    rw [List.reverse_cons, slmMappings32_snoc, linesMapping32_snoc, ← this, h1, K.last]
    simp only [List.append_assoc]
  · have := K.text
    rw [List.reverse_cons, slmText_snoc] at this
    rw [List.reverse_cons, slmText_snoc, h2, ← List.append_assoc, this]; simp

theorem source_new_says32 {l : Str} (h : Ended l) (s o : Option Int) (k : Nat) (rev : List LNode) :
    HeadSays32 (.source (LSource.new l s o k) :: rev) (usize32 (k + 1)) (nextOf32 (some (s, o, k))) := by
  obtain ⟨x, rfl, hx⟩ := h
  obtain ⟨f1, f2⟩ := nl_facts hx
  exact ⟨by simp [LSource.new], f1, rfl, by simp [LSource.new, f2], _, rfl⟩

theorem source_more_says32 {l : Str} (h : Ended l) {n : LSource} {nl : Nat} {rev : List LNode} {prev : At}
    (S : HeadSays32 (.source n :: rev) nl prev) (o : Option Int) :
    HeadSays32 (.source (n.addCode l) :: rev) (usize32 (nl + 1)) (nextOf32 (some (n.source, o, nl))) := by
  obtain ⟨x, rfl, hx⟩ := h
  obtain ⟨f1, f2⟩ := nl_facts hx
  obtain ⟨g1, g2, g3, g4, -⟩ := S
  refine ⟨by simp [LSource.addCode], ?_, ?_, ?_, _, rfl⟩
  · simp only [LSource.addCode]; rw [unfinished_append (by simp), f1]
  · simp only [LSource.addCode, g3]; simp [numberOfLines]
  · simp only [LSource.addCode, f2, ← g4]; unfold usize32; omega

theorem addCode_nil (n : LSource) : (n.addCode []).code = n.code ∧ (n.addCode []).numLines = n.numLines ∧
    (n.addCode []).source = n.source ∧ (n.addCode []).original = n.original ∧ (n.addCode []).startLine = n.startLine := by
  simp [LSource.addCode, numberOfLines]

/-- One line more, as a line. -/
theorem more_line {n : LSource} {nl : Nat} {rev : List LNode} {prev : At} (S : HeadSays32 (.source n :: rev) nl prev)
    {l : Str} (hl : Lined l) (o : Option Int) (c : MapCtx) :
    LSource.mappings32 c (n.addCode l) = ((LSource.mappings32 c n).1 ++
      (lineMapping32 prev (LSource.mappings32 c n).2 (l, some (n.source, o, nl))).1,
      (lineMapping32 prev (LSource.mappings32 c n).2 (l, some (n.source, o, nl))).2) := by
  obtain ⟨g1, g2, g3, g4, o', hp⟩ := S
  by_cases h0 : l = []
  · subst h0
    obtain ⟨a1, a2, a3, a4, a5⟩ := addCode_nil n
    simp [lineMapping32, LSource.mappings32, a1, a2, a3, a4, a5]
  · rw [source_more32 c g1 g2 g3 hl h0]
    have hg : goesOn prev n.source nl = true := goesOn_iff.2 ⟨o', hp⟩
    simp only [lineMapping32, if_neg h0, hg, if_true, g4]

theorem new_line {l : Str} {prev : At} {s o : Option Int} {k : Nat} (h : goesOn prev s k = false) (c : MapCtx) :
    LSource.mappings32 c (LSource.new l s o k) = lineMapping32 prev c (l, some (s, o, k)) := by
  simp only [lineMapping32, h, Bool.false_eq_true, if_false]
  split
  · rename_i e; subst e; simp [LSource.mappings32, LSource.new]
  · rfl

theorem addSource_kept32 {st : LfState} {L : List TLine} {prev : At} (S : HeadSays32 st.rev st.nodeLine prev)
    (K : KeptLines32 st.rev prev L) {l : Str} (hl : Lined l) (s o : Option Int) (k : Nat) :
    KeptLines32 (lfAddSource32 st l s o k).rev (nextOf32 (some (s, o, k))) (L ++ [(l, some (s, o, k))]) ∧
      (Ended l → HeadSays32 (lfAddSource32 st l s o k).rev (lfAddSource32 st l s o k).nodeLine
        (nextOf32 (some (s, o, k)))) := by
  have new : goesOn prev s k = false →
      KeptLines32 (.source (LSource.new l s o k) :: st.rev) (nextOf32 (some (s, o, k))) (L ++ [(l, some (s, o, k))]) :=
    fun h => K.push (.source (LSource.new l s o k)) (l, some (s, o, k)) (fun c => new_line h c) rfl
  unfold lfAddSource32
  split
  · rename_i n rest e
    split
    · rename_i h
      obtain ⟨rfl, rfl⟩ := h
      rw [e] at S K
      exact ⟨K.more (x' := .source (n.addCode l)) (l, some (n.source, o, st.nodeLine)) (fun c => more_line S hl o c) rfl,
        fun h => source_more_says32 h S o⟩
    · rename_i h
      refine ⟨new ?_, fun h => source_new_says32 h s o k _⟩
      rw [e] at S
      obtain ⟨-, -, -, -, o', hp⟩ := S
      rw [Bool.eq_false_iff]
      intro hg
      obtain ⟨o'', hp'⟩ := goesOn_iff.1 hg
      rw [hp] at hp'
      simp only [Option.some.injEq, Prod.mk.injEq] at hp'
      exact h ⟨hp'.1, hp'.2.2⟩
  · rename_i h1
    refine ⟨new ?_, fun h => source_new_says32 h s o k _⟩
    have hp : prev = none := by
      generalize hr : st.rev = r at S h1
      cases r with
      | nil => exact S
      | cons x r =>
        cases x with
        | code s => exact S.1
        | source n => exact absurd rfl (h1 n r)
        | _ => cases S
    rw [hp]; rfl

theorem addCode_kept32 {st : LfState} {L : List TLine} {prev : At} (S : HeadSays32 st.rev st.nodeLine prev)
    (K : KeptLines32 st.rev prev L) {l : Str} (hl : Lined l) :
    KeptLines32 (lfAddCode32 st l).rev (nextOf32 (if isBlank l then prev else none))
        (L ++ [(l, if isBlank l then prev else none)]) ∧
      (Ended l → HeadSays32 (lfAddCode32 st l).rev (lfAddCode32 st l).nodeLine
        (nextOf32 (if isBlank l then prev else none))) := by
  have codeSays : ∀ (t : Str) (rev : List LNode) (nl : Nat), Ended l → HeadSays32 (.code (t ++ l) :: rev) nl none := by
    rintro t rev nl ⟨x, rfl, hx⟩
    exact ⟨rfl, by simp, by rw [unfinished_append (by simp), (nl_facts hx).1]⟩
  have new : KeptLines32 (.code l :: st.rev) (nextOf32 none) (L ++ [(l, none)]) := K.push _ (l, none) (fun c => rfl) rfl
  unfold lfAddCode32
  split
  · rename_i s rest e
    rw [e] at S K
    obtain ⟨rfl, g1, g2⟩ := S
    rw [ite_self]
    exact ⟨K.more (l, none) (fun c => code_more c g1 g2 hl) rfl, codeSays s rest _⟩
  · rename_i n rest e
    rw [e] at S
    split
    · rw [e] at K
      obtain ⟨-, -, -, -, o, hp⟩ := id S
      subst hp
      exact ⟨K.more (x' := .source (n.addCode l)) (l, some (n.source, o, st.nodeLine)) (fun c => more_line S hl o c) rfl,
        fun h => source_more_says32 h S o⟩
    · exact ⟨new, codeSays [] _ _⟩
  · rename_i h1 h2
    have hp : prev = none := by
      generalize hr : st.rev = r at S h1 h2
      cases r with
      | nil => exact S
      | cons x r =>
        cases x with
        | code s => exact absurd rfl (h1 s r)
        | source n => exact absurd rfl (h2 n r)
        | _ => cases S
    subst hp
    rw [ite_self]
    exact ⟨new, codeSays [] _ _⟩

/-! ## The lines behind the mappings -/

theorem fold_code32 (st : LfState) (rest : List LNode) : ∀ (ls : List Str) (s : Str),
    ls.foldl lfAddCode32 { st with rev := .code s :: rest } = { st with rev := .code (s ++ ls.flatten) :: rest }
  | [], s => by simp
  | l :: ls, s => by
    rw [List.foldl_cons]
    change ls.foldl lfAddCode32 { st with rev := .code (s ++ l) :: rest } = _
    rw [fold_code32 st rest ls, List.flatten_cons, List.append_assoc]

theorem lfRest32_fold : ∀ (ls : List Str) (st : LfState), lfRest32 st ls = ls.foldl lfAddCode32 st
  | [], _ => rfl
  | l :: ls, st => by
    rw [lfRest32, List.foldl_cons, isBlank_nl]
    split
    · exact lfRest32_fold ls _
    · rename_i h
      have h' : ¬ isBlank (l ++ ls.flatten) = true := by
        intro hb
        apply h
        simp only [isBlank, List.all_append, Bool.and_eq_true] at hb ⊢
        exact hb.1
      obtain ⟨s, rest, e1, e2⟩ : ∃ s rest, lfAddCode32 st l = { st with rev := .code (s ++ l) :: rest } ∧
          lfAddCode32 st (l ++ ls.flatten) = { st with rev := .code (s ++ (l ++ ls.flatten)) :: rest } := by
        unfold lfAddCode32
        split
        · exact ⟨_, _, rfl, rfl⟩
        · rw [if_neg h, if_neg h']; exact ⟨[], _, rfl, rfl⟩
        · exact ⟨[], _, rfl, rfl⟩
      rw [e1, e2, fold_code32, List.append_assoc]

theorem rest_kept32 {S C : List Int} : ∀ (ls : List Str) (st : LfState) {L : List TLine} {prev : At} (a : Int × Int),
    CodeLines ls → HeadSays32 st.rev st.nodeLine prev → KeptLines32 st.rev prev L →
    ∃ p, KeptLines32 (ls.foldl lfAddCode32 st).rev p (L ++ readTLines32 S C a [] prev ls)
  | [], st, L, prev, a, _, _, K => ⟨prev, by simpa [readTLines32] using K⟩
  | l :: ls, st, L, prev, a, h, hs, K => by
    obtain ⟨h1, h2⟩ := addCode_kept32 hs K h.lined
    rw [List.foldl_cons, readTLines32]
    have hr : readLine S C a (([] : List (List (List Int))).headD []) prev l = if isBlank l then prev else none := by
      simp [readLine, firstSums]
    rw [hr, List.append_cons]
    cases ls with
    | nil => exact ⟨_, by simpa [readTLines32] using h1⟩
    | cons l' ls => exact rest_kept32 (l' :: ls) _ _ h.tail (h2 h.cons.1) h1

/-! ## All lines -/

theorem lines_read32 {S C : List Int} : ∀ (ms : List Str) (n : List (List (List Int))) (ls : List Str) (st : LfState)
    (a : Int × Int) (prev : At) (L : List TLine),
    Each (fun m xss => leads (cut ',' m) = some xss) (ms.take ls.length) n → CodeLines ls →
    HeadSays32 st.rev st.nodeLine prev → KeptLines32 st.rev prev L →
    ∃ st' rest, lfLines32 S C (put st a) ls ms = .ok (st', rest) ∧
      ∃ p, KeptLines32 (lfRest32 st' rest).rev p (L ++ readTLines32 S C a n prev ls)
  | [], n, ls, st, a, prev, L, hn, hls, hs, K => by
    rw [List.take_nil] at hn
    cases hn with
    | nil =>
      have e : lfLines32 S C (put st a) ls [] = .ok (put st a, ls) := by cases ls <;> rfl
      refine ⟨_, ls, e, ?_⟩
      rw [lfRest32_fold]
      exact rest_kept32 ls (put st a) a hls hs K
  | m :: ms, n, [], st, a, prev, L, hn, hls, hs, K =>
    ⟨put st a, [], lfLines32_nil _ _, prev, by simpa [lfRest32, readTLines32, put] using K⟩
  | m :: ms, n, l :: ls, st, a, prev, L, hn, hls, hs, K => by
    rw [List.length_cons, List.take_succ_cons] at hn
    cases hn with
    | cons hn1 hn2 =>
      rename_i xss n
      have step : ∃ st1, lfLine32 S C (put st a) l m = .ok (put st1 (xss.foldl summed a)) ∧
          KeptLines32 st1.rev (nextOf32 (readLine S C a xss prev l)) (L ++ [(l, readLine S C a xss prev l)]) ∧
          (Ended l → HeadSays32 st1.rev st1.nodeLine (nextOf32 (readLine S C a xss prev l))) := by
        rw [lfLine32_any, hn1]
        dsimp only
        rw [segsEffect32_put]
        simp only [Bool.false_eq_true, if_false]
        cases hf : firstSums a xss with
        | none =>
          have hr : readLine S C a xss prev l = if isBlank l then prev else none := by simp [readLine, hf]
          rw [hr]
          exact ⟨lfAddCode32 st l, by simp [lfAddCode32_put], addCode_kept32 hs K hls.lined⟩
        | some o =>
          have hr : readLine S C a xss prev l = some (S[low o.1]?, C[low o.1]?, low o.2) := by simp [readLine, hf]
          rw [hr]
          exact ⟨lfAddSource32 st l S[low o.1]? C[low o.1]? (low o.2), by simp [lfAddSource32_put],
            addSource_kept32 hs K hls.lined _ _ _⟩
      obtain ⟨st1, s1, s2, s3⟩ := step
      rw [lfLines32, s1, readTLines32]
      dsimp only [List.headD_cons, List.tail_cons]
      cases ls with
      | nil =>
        rw [lfLines32_nil]
        exact ⟨_, [], rfl, _, by simpa [lfRest32, readTLines32, put] using s2⟩
      | cons l' ls =>
        obtain ⟨st', rest, t1, t2⟩ := lines_read32 (S := S) (C := C) ms n (l' :: ls) st1 (xss.foldl summed a) _ _ hn2
          hls.tail (s3 hls.cons.1) s2
        exact ⟨st', rest, t1, by rw [List.append_cons]; exact t2⟩

/-- The whole reading. -/
theorem slmFromString32_tlines (code : Str) (S C : List Int) (mappings : Str) (n : List (List (List Int)))
    (hn : Each (fun m xss => leads (cut ',' m) = some xss) ((splitDrop ';' mappings).take (splitKeep '\n' code).length) n) :
    ∃ m, slmFromString32 code S C mappings = .ok m ∧
      ∃ p, KeptLines32 m.reverse p (readTLines32 S C (0, 1) n none (splitKeep '\n' code)) := by
  obtain ⟨st, rest, h1, p, h2⟩ := lines_read32 (S := S) (C := C) _ n (splitKeep '\n' code)
    { rev := [], curLine := 1, curSource := 0, nodeLine := 0 } (0, 1) none [] hn (codeLines_splitKeep code) rfl
    ⟨fun c => rfl, rfl, rfl⟩
  have e : put { rev := [], curLine := 1, curSource := 0, nodeLine := 0 } (0, 1) =
      { rev := [], curLine := 1, curSource := 0, nodeLine := 0 } := rfl
  rw [e] at h1
  refine ⟨(lfRest32 st rest).rev.reverse, by unfold slmFromString32; rw [h1], p, ?_⟩
  rw [List.reverse_reverse]
  simpa using h2

/-! ## The table -/

/-- Files have different numbers in the table. -/
def Apart (c : MapCtx) : Prop := ∀ s s' i o o', c.sources.lookup s = some (i, o) → c.sources.lookup s' = some (i, o') →
  s = s'

theorem ensured_apart {c : MapCtx} (T : Tabled c) (A : Apart c) (s o : Option Int) :
    Apart (c.ensureSource s o).2 ∧ (∃ o', (c.ensureSource s o).2.sources.lookup s = some ((c.ensureSource s o).1, o')) ∧
      ∀ s' o', c.sources.lookup s' = some ((c.ensureSource s o).1, o') → s' = s := by
  unfold MapCtx.ensureSource
  cases e : c.sources.lookup s with
  | some p => exact ⟨A, ⟨p.2, e⟩, fun s' o' h => A s' s p.1 o' p.2 h e⟩
  | none =>
    dsimp only
    refine ⟨?_, ⟨o, lookup_snoc _ e⟩, fun s' o' h => absurd (T.bound s' _ o' h) (Nat.lt_irrefl _)⟩
    have key : ∀ s' i o', (c.sources ++ [(s, c.sources.length, o)]).lookup s' = some (i, o') →
        (c.sources.lookup s' = some (i, o') ∧ i < c.sources.length) ∨ (i = c.sources.length ∧ s' = s) := by
      intro s' i o' h
      rw [List.lookup_append] at h
      cases e' : c.sources.lookup s' with
      | some p =>
        rw [e'] at h
        simp only [Option.some_or, Option.some.injEq] at h
        subst h
        exact .inl ⟨rfl, T.bound s' i o' e'⟩
      | none =>
        rw [e', Option.none_or] at h
        simp only [List.lookup] at h
        split at h
        · rename_i h'
          cases h
          exact .inr ⟨rfl, by simpa using h'⟩
        · cases h
    intro s1 s2 i o1 o2 h1 h2
    rcases key s1 i o1 h1 with ⟨h1, h1'⟩ | ⟨h1, h1'⟩ <;> rcases key s2 i o2 h2 with ⟨h2, h2'⟩ | ⟨h2, h2'⟩
    · exact A s1 s2 i o1 o2 h1 h2
    · omega
    · omega
    · rw [h1', h2']

/-! ## Reading what was written -/

/-- The reader has the numbers of the writer. -/
def InStep (a : Int × Int) (c : MapCtx) : Prop := low a.1 = c.source ∧ low a.2 = c.origLine

/-- What the writer and the reader know of the next line. -/
structure BothKnow (S : List Int) (c : MapCtx) (prev prev' : At) : Prop where
  none : prev = none → prev' = none
  some : ∀ s o k, prev = some (s, o, k) → (∃ o', prev' = some (S[c.source]?, o', k)) ∧
    (∃ o', c.sources.lookup s = some (c.source, o')) ∧ k = usize32 (c.origLine + 1)

/-- A line with a place of its own. -/
theorem source_line32 {c c' : MapCtx} (hu : c.unfinished = 0) {l : Str} (hl : Lined l) (h0 : l ≠ []) {prev : At}
    {s o : Option Int} {k i : Nat} (hg : goesOn prev s k = false) (hk : k < 2 ^ 32) (he : c.ensureSource s o = (i, c'))
    (h1 : c'.source = c.source) (h2 : c'.origLine = c.origLine) (h3 : c'.unfinished = c.unfinished) :
    lineMapping32 prev c (l, some (s, o, k)) = (firstSeg c i k ++ List.replicate (numberOfLines l) ';',
      { c' with source := i, unfinished := unfinishedLines l, origLine := k }) := by
  have e : l.isEmpty = false := by simpa using h0
  simp only [lineMapping32, if_neg h0, hg, LSource.mappings32, LSource.new, e, Bool.false_eq_true, if_false, he]
  have hh : headSeg c' i k = firstSeg c i k := by
    simp [headSeg, firstSeg, h1, h2, h3, hu]
  rw [hh]
  rcases hl with ⟨x, rfl, hx⟩ | hn
  · obtain ⟨f1, f2⟩ := nl_facts hx
    have : toUsize ((usize32 (k + 1) : Int) - 1) = k := by
      rw [toUsize_low]; unfold low usize32; omega
    simp [f1, f2, this]
  · have hz : numberOfLines l = 0 := List.count_eq_zero.2 hn
    have hb := unfinished_pos h0 hn
    have : usize32 (toUsize ((usize32 k : Int) - 1) + 1) = k := by
      rw [toUsize_low]; unfold low usize32; omega
    simp [hz, hb, this]

theorem empty_line32 (c : MapCtx) (hu : c.unfinished = 0) (prev x : At) : lineMapping32 prev c ([], x) = ([], c) := by
  cases x with
  | none => exact empty_line c hu none
  | some x => rfl

/-- One line read back. -/
theorem one_back32 {S C : List Int} (hS : S.Nodup) (h32 : S.length ≤ 2 ^ 32) (x : TLine) (c : MapCtx) (a : Int × Int)
    (prev prev' : At) (hl : Lined x.1) (hu : c.unfinished = 0) (T : Tabled c) (A : Apart c) (ha : InStep a c)
    (ht : BothKnow S c prev prev') (hlen : (lineMapping32 prev c x).2.sources.length ≤ S.length)
    (hb : ∀ s o k, x.2 = some (s, o, k) → k < 2 ^ 32) (hp : x.2 = none → isBlank x.1 = true → prev = none) :
    ∃ seg xss, (lineMapping32 prev c x).1 = seg ++ List.replicate (numberOfLines x.1) ';' ∧ ';' ∉ seg ∧
      leads (cut ',' seg) = some xss ∧
      lineMapping32 prev' (renamed S C c) (x.1, readLine S C a xss prev' x.1) =
        ((lineMapping32 prev c x).1, renamed S C (lineMapping32 prev c x).2) ∧
      (Ended x.1 → InStep (xss.foldl summed a) (lineMapping32 prev c x).2 ∧ (lineMapping32 prev c x).2.unfinished = 0 ∧
        BothKnow S (lineMapping32 prev c x).2 (nextOf32 x.2) (nextOf32 (readLine S C a xss prev' x.1))) ∧
      Tabled (lineMapping32 prev c x).2 ∧ Apart (lineMapping32 prev c x).2 ∧
      c.sources.length ≤ (lineMapping32 prev c x).2.sources.length := by
  obtain ⟨l, x⟩ := x
  dsimp only at hl hp hb ⊢
  have hur : (renamed S C c).unfinished = 0 := hu
  by_cases h0 : l = []
  · subst h0
    rw [empty_line32 c hu]
    refine ⟨[], [[]], rfl, by simp, rfl, empty_line32 _ hur _ _, ?_, T, A, Nat.le_refl _⟩
    rintro ⟨x, hx, -⟩
    simp at hx
  cases x with
  | none =>
    have hr : ∀ xss, firstSums a xss = none → readLine S C a xss prev' l = none := by
      intro xss h
      unfold readLine
      rw [h]
      by_cases hbl : isBlank l = true
      · simp [ht.none (hp rfl hbl)]
      · simp [hbl]
    have hc : ∀ p d, lineMapping32 p d (l, none) = lineMapping d (l, none) := fun _ _ => rfl
    rw [hc, code_line hu hl] at hlen ⊢
    refine ⟨_, if unfinishedLines l = 0 then [[]] else [[0]], rfl, ?_, ?_, ?_, ?_, ?_, A, Nat.le_refl _⟩
    · split <;> simp
    · split <;> decide +kernel
    · rw [hr _ (by split <;> rfl), hc, code_line hur hl]
      rfl
    · rintro ⟨y, rfl, hy⟩
      rw [(nl_facts hy).1]
      refine ⟨ha, rfl, ?_⟩
      rw [hr _ rfl]
      exact ⟨fun _ => rfl, fun _ _ _ h => by cases h⟩
    · exact ⟨T.bound, T.nodup⟩
  | some x =>
    obtain ⟨s, o, k⟩ := x
    have hk := hb s o k rfl
    obtain ⟨ha1, ha2⟩ := ha
    cases hg : goesOn prev s k with
    | true =>
      obtain ⟨o0, hprev⟩ := goesOn_iff.1 hg
      obtain ⟨⟨o1, hprev'⟩, ⟨o2, hlook⟩, hkc⟩ := ht.some s o0 k hprev
      have hm : lineMapping32 prev c (l, some (s, o, k)) = ("AACA".toList ++ List.replicate (numberOfLines l) ';',
          { c with unfinished := unfinishedLines l, origLine := k }) := by
        simp only [lineMapping32, if_neg h0, hg, if_true]
      rw [hm]
      have hr : readLine S C a [[0, 0, 1]] prev' l = some (S[c.source]?, C[c.source]?, k) := by
        have e2 : low (a.2 + 1) = k := by
          rw [hkc, ← ha2]; unfold low usize32; omega
        simp [readLine, firstSums, summed, e2, ha1]
      refine ⟨_, [[0, 0, 1]], rfl, by decide, by decide +kernel, ?_, ?_, ⟨T.bound, T.nodup⟩, A, Nat.le_refl _⟩
      · rw [hr]
        have hg' : goesOn prev' S[c.source]? k = true := goesOn_iff.2 ⟨o1, hprev'⟩
        simp only [lineMapping32, if_neg h0, hg', if_true]
        rfl
      · rintro ⟨y, rfl, hy⟩
        rw [(nl_facts hy).1, hr]
        refine ⟨⟨?_, ?_⟩, rfl, ⟨fun h => by simp [nextOf32] at h, fun s' o' k' h => ?_⟩⟩
        · simp [summed, ha1]
        · simp only [List.foldl_cons, List.foldl_nil, summed]
          rw [hkc, ← ha2]; unfold low usize32; omega
        · simp only [nextOf32, Option.map_some, Option.some.injEq, Prod.mk.injEq] at h
          obtain ⟨rfl, rfl, rfl⟩ := h
          exact ⟨⟨_, rfl⟩, ⟨o2, hlook⟩, rfl⟩
    | false =>
      obtain ⟨he, hT⟩ := T.ensured s o
      obtain ⟨hA, hlk, huniq⟩ := ensured_apart T A s o
      obtain ⟨e1, e2, e3, e4, e5⟩ := ensured_same he
      generalize hc : c.ensureSource s o = p at *
      obtain ⟨i, c'⟩ := p
      dsimp only at he hT hA hlk huniq e1 e2 e3 e4 e5
      rw [source_line32 hu hl h0 hg hk hc e1 e2 e3] at hlen ⊢
      dsimp only at hlen
      obtain ⟨f1, f2⟩ := firstSeg_leads c i k
      have hr : readLine S C a [[0, (i : Int) - c.source, (k : Int) - c.origLine]] prev' l =
          some (S[i]?, C[i]?, k) := by
        have a1 : low (a.1 + ((i : Int) - c.source)) = i := by
          rw [← ha1]; unfold low; omega
        have a2 : low (a.2 + ((k : Int) - c.origLine)) = k := by
          rw [← ha2]; unfold low; omega
        simp only [readLine, firstSums, summed, List.length_cons]
        simp [a1, a2]
      have hg' : goesOn prev' S[i]? k = false := by
        rw [Bool.eq_false_iff]
        intro h
        obtain ⟨o', hp'⟩ := goesOn_iff.1 h
        cases hprev : prev with
        | none => rw [ht.none hprev] at hp'; cases hp'
        | some q =>
          obtain ⟨s0, o0, k0⟩ := q
          obtain ⟨⟨o1, hq⟩, ⟨o2, hlook⟩, -⟩ := ht.some s0 o0 k0 hprev
          rw [hp'] at hq
          simp only [Option.some.injEq, Prod.mk.injEq] at hq
          obtain ⟨q1, -, rfl⟩ := hq
          have hi : i = c.source := (List.getElem?_inj (by omega) hS).1 q1
          rw [← hi] at hlook
          have := huniq s0 o2 hlook
          subst this
          rw [goesOn_iff.2 ⟨o0, hprev⟩] at hg
          cases hg
      refine ⟨_, _, rfl, f1, f2, ?_, ?_, ⟨hT.bound, hT.nodup⟩, hA, e5⟩
      · rw [hr, source_line32 hur hl h0 hg' hk (renamed_ensure hS he hlen) e1 e2 e3]
        rfl
      · rintro ⟨y, rfl, hy⟩
        rw [(nl_facts hy).1, hr]
        refine ⟨⟨?_, ?_⟩, rfl, ⟨fun h => by simp [nextOf32] at h, fun s' o' k' h => ?_⟩⟩
        · simp only [List.foldl_cons, List.foldl_nil, summed]
          rw [← ha1]; unfold low; omega
        · simp only [List.foldl_cons, List.foldl_nil, summed]
          rw [← ha2]; unfold low; omega
        · simp only [nextOf32, Option.map_some, Option.some.injEq, Prod.mk.injEq] at h
          obtain ⟨rfl, rfl, rfl⟩ := h
          exact ⟨⟨_, rfl⟩, hlk, rfl⟩

/-- A blank line is left alone only behind a line left alone. -/
def Stays32 : At → List TLine → Prop
  | _, [] => True
  | prev, x :: L => (x.2 = none → isBlank x.1 = true → prev = none) ∧ Stays32 (nextOf32 x.2) L

theorem readTLines32_stays {S C : List Int} : ∀ (ls : List Str) (a : Int × Int) (n : List (List (List Int)))
    (prev : At), Stays32 prev (readTLines32 S C a n prev ls)
  | [], _, _, _ => trivial
  | l :: ls, a, n, prev => by
    refine ⟨fun h hb => ?_, readTLines32_stays ls _ _ _⟩
    simp only [readLine, hb, if_true] at h
    exact (Option.or_eq_none_iff.1 h).2

theorem linesMapping32_tabled : ∀ (L : List TLine) (prev : At) (c : MapCtx), Tabled c →
    Tabled (linesMapping32 prev c L).2 ∧ c.sources.length ≤ (linesMapping32 prev c L).2.sources.length
  | [], _, c, T => ⟨T, Nat.le_refl _⟩
  | (l, x) :: L, prev, c, T => by
    have h : Tabled (lineMapping32 prev c (l, x)).2 ∧
        c.sources.length ≤ (lineMapping32 prev c (l, x)).2.sources.length := by
      cases x with
      | none =>
        unfold lineMapping32 codeMappings
        dsimp only
        split <;> exact ⟨⟨T.bound, T.nodup⟩, Nat.le_refl _⟩
      | some x =>
        obtain ⟨s, o, k⟩ := x
        unfold lineMapping32
        dsimp only
        split
        · exact ⟨T, Nat.le_refl _⟩
        · split
          · exact ⟨⟨T.bound, T.nodup⟩, Nat.le_refl _⟩
          · unfold LSource.mappings32
            split
            · exact ⟨T, Nat.le_refl _⟩
            · obtain ⟨he, hT⟩ := T.ensured s o
              exact ⟨⟨hT.bound, hT.nodup⟩, (ensured_same he).2.2.2.2⟩
    obtain ⟨h1, h2⟩ := linesMapping32_tabled L (nextOf32 x) _ h.1
    exact ⟨h1, Nat.le_trans h.2 h2⟩

/-- All lines read back. -/
theorem lines_back32 {S C : List Int} (hS : S.Nodup) (h32 : S.length ≤ 2 ^ 32) : ∀ (L : List TLine) (c : MapCtx)
    (a : Int × Int) (prev prev' : At), L ≠ [] → CodeLines (L.map Prod.fst) → c.unfinished = 0 →
    Tabled c → Apart c → InStep a c → BothKnow S c prev prev' →
    (linesMapping32 prev c L).2.sources.length ≤ S.length → (∀ l s o k, (l, some (s, o, k)) ∈ L → k < 2 ^ 32) →
    Stays32 prev L →
    ∃ n, Each (fun m xss => leads (cut ',' m) = some xss) (splitDrop ';' (linesMapping32 prev c L).1) n ∧
      linesMapping32 prev' (renamed S C c) (readTLines32 S C a n prev' (L.map Prod.fst)) =
        ((linesMapping32 prev c L).1, renamed S C (linesMapping32 prev c L).2) ∧
      (splitDrop ';' (linesMapping32 prev c L).1).length = L.length
  | [], _, _, _, _, h, _, _, _, _, _, _, _, _, _ => absurd rfl h
  | [x], c, a, prev, prev', _, hls, hu, T, A, ha, ht, hlen, hb, hs => by
    obtain ⟨seg, xss, g1, g2, g3, g4, -, -, -, -⟩ := one_back32 (C := C) hS h32 x c a prev prev' (CodeLines.lined hls) hu T
      A ha ht hlen (fun s o k e => hb x.1 s o k (by rw [← e]; simp)) hs.1
    have hz : numberOfLines x.1 = 0 := List.count_eq_zero.2 hls
    rw [hz, List.replicate_zero, List.append_nil] at g1
    have hd : splitDrop ';' (linesMapping32 prev c [x]).1 = [seg] := by
      rw [linesMapping32, linesMapping32, List.append_nil, g1, splitDrop_of_not_mem g2]
    refine ⟨[xss], ?_, ?_, ?_⟩
    · rw [hd]
      exact .cons g3 .nil
    · simp only [List.map_cons, List.map_nil, readTLines32, linesMapping32, List.headD_cons, g4]
    · rw [hd]; rfl
  | x :: y :: L, c, a, prev, prev', _, hls, hu, T, A, ha, ht, hlen, hb, hs => by
    have hend : Ended x.1 := hls.cons.1
    have hmono : (lineMapping32 prev c x).2.sources.length ≤ (linesMapping32 prev c (x :: y :: L)).2.sources.length := by
      have := linesMapping32_tabled [x] prev c T
      exact (linesMapping32_tabled (y :: L) (nextOf32 x.2) (lineMapping32 prev c x).2 this.1).2
    obtain ⟨seg, xss, g1, g2, g3, g4, g5, g6, g6', g7⟩ := one_back32 (C := C) hS h32 x c a prev prev' (.inl hend) hu T A ha
      ht (Nat.le_trans hmono hlen) (fun s o k e => hb x.1 s o k (by rw [← e]; simp)) hs.1
    obtain ⟨k1, k2, k3⟩ := g5 hend
    obtain ⟨n, n1, n2, n3⟩ := lines_back32 (S := S) (C := C) hS h32 (y :: L) (lineMapping32 prev c x).2
      (xss.foldl summed a) (nextOf32 x.2) (nextOf32 (readLine S C a xss prev' x.1)) (by simp) hls.cons.2 k2 g6 g6' k1 k3
      hlen (fun l s o k h => hb l s o k (List.mem_cons_of_mem _ h)) hs.2
    have h1 : numberOfLines x.1 = 1 := by
      obtain ⟨z, hz, hz'⟩ := hend
      rw [hz]; exact (nl_facts hz').2
    rw [h1] at g1
    have hd : splitDrop ';' (linesMapping32 prev c (x :: y :: L)).1 =
        seg :: splitDrop ';' (linesMapping32 (nextOf32 x.2) (lineMapping32 prev c x).2 (y :: L)).1 := by
      rw [linesMapping32, g1]
      dsimp only
      rw [List.append_assoc]
      change splitDrop ';' (seg ++ ';' :: (linesMapping32 (nextOf32 x.2) (lineMapping32 prev c x).2 (y :: L)).1) = _
      rw [splitDrop_append_sep g2]
    refine ⟨xss :: n, ?_, ?_, by rw [hd, List.length_cons, n3]; rfl⟩
    · rw [hd]
      exact .cons g3 n1
    · rw [List.map_cons, readTLines32, linesMapping32]
      dsimp only [List.headD_cons, List.tail_cons]
      rw [g4]
      dsimp only
      rw [n2]
      rfl

/-! ## The files and lines -/

theorem readTLines32_files {S C : List Int} : ∀ (ls : List Str) (a : Int × Int) (n : List (List (List Int)))
    (prev : At), (∀ s o k, prev = some (s, o, k) → (∀ i, s = some i → i ∈ S) ∧ k < 2 ^ 32) →
    ∀ l s o k, (l, some (s, o, k)) ∈ readTLines32 S C a n prev ls → (∀ i, s = some i → i ∈ S) ∧ k < 2 ^ 32
  | [], _, _, _, _, _, _, _, _, h => by simp [readTLines32] at h
  | l :: ls, a, n, prev, hp, l', s, o, k, h => by
    have hr : ∀ s o k, readLine S C a (n.headD []) prev l = some (s, o, k) → (∀ i, s = some i → i ∈ S) ∧ k < 2 ^ 32 := by
      intro s o k h
      unfold readLine at h
      rcases Option.or_eq_some_iff.1 h with h | h
      · rw [Option.map_eq_some_iff] at h
        obtain ⟨p, -, h⟩ := h
        simp only [Prod.mk.injEq] at h
        obtain ⟨h1, -, h3⟩ := h
        refine ⟨fun i e => List.mem_of_getElem? (h1.trans e), ?_⟩
        rw [← h3]; unfold low; omega
      · split at h
        · exact hp s o k h.2
        · simp at h
    rcases List.mem_cons.1 h with h | h
    · simp only [Prod.mk.injEq] at h
      exact hr s o k h.2.symm
    · refine readTLines32_files ls _ _ _ (fun s o k e => ?_) l' s o k h
      unfold nextOf32 at e
      rw [Option.map_eq_some_iff] at e
      obtain ⟨⟨p1, p2, p3⟩, h1, h2⟩ := e
      simp only [Prod.mk.injEq] at h2
      obtain ⟨rfl, rfl, rfl⟩ := h2
      exact ⟨(hr _ _ _ h1).1, by unfold usize32; omega⟩

theorem linesMapping32_files {P : Option Int → Prop} : ∀ (L : List TLine) (prev : At) (c : MapCtx),
    (∀ l s o k, (l, some (s, o, k)) ∈ L → P s) → (∀ p ∈ c.sources, P p.1) →
    ∀ p ∈ (linesMapping32 prev c L).2.sources, P p.1
  | [], _, c, _, h => h
  | (l, x) :: L, prev, c, hL, h => by
    refine linesMapping32_files L (nextOf32 x) _ (fun l s o k h => hL l s o k (List.mem_cons_of_mem _ h)) ?_
    cases x with
    | none =>
      unfold lineMapping32 codeMappings
      dsimp only
      split <;> exact h
    | some x =>
      obtain ⟨s, o, k⟩ := x
      unfold lineMapping32
      dsimp only
      split
      · exact h
      · split
        · exact h
        · unfold LSource.mappings32
          split
          · exact h
          · dsimp only [LSource.new, MapCtx.ensureSource]
            split
            · exact h
            · intro p hp
              rcases List.mem_append.1 hp with hp | hp
              · exact h p hp
              · cases List.mem_singleton.1 hp
                exact hL l s o k (by simp)

theorem readTLines32_fst {S C : List Int} : ∀ (ls : List Str) (a : Int × Int) (n : List (List (List Int)))
    (prev : At), (readTLines32 S C a n prev ls).map Prod.fst = ls
  | [], _, _, _ => rfl
  | l :: ls, _, _, _ => by rw [readTLines32, List.map_cons, readTLines32_fst ls]

/-! ## The claim -/

/-- C87: with the arithmetic of the program, a map read and rendered, then read and rendered again, is the same. Whatever
the numbers in the map, if the files of the first rendering are distinct. -/
theorem C87_wasm_distinct_partial (code : Str) (S C : List Int) (mappings : Str) (m : Slm) (f : Option Int)
    (h : slmFromString32 code S C mappings = .ok m) (h32 : S.length < 2 ^ 32)
    (hnd : (slmToStringWithSourceMap32 m f).map.sources.Nodup) :
    (slmToStringWithSourceMap32 m f).source = code ∧
    ∃ m', slmFromString32 code (slmToStringWithSourceMap32 m f).map.sources
        (slmToStringWithSourceMap32 m f).map.sourcesContent (slmToStringWithSourceMap32 m f).map.mappings = .ok m' ∧
      slmToStringWithSourceMap32 m' f = slmToStringWithSourceMap32 m f := by
  obtain ⟨n, hn⟩ : ∃ n, Each (fun m xss => leads (cut ',' m) = some xss)
      ((splitDrop ';' mappings).take (splitKeep '\n' code).length) n := by
    unfold slmFromString32 at h
    split at h
    · cases h
    · rename_i st rest e
      exact lfLines32_reads _ _ _ e
  obtain ⟨m1, e1, p, K⟩ := slmFromString32_tlines code S C mappings n hn
  rw [h] at e1
  cases e1
  generalize hL : readTLines32 S C (0, 1) n none (splitKeep '\n' code) = L at K
  have hfst : L.map Prod.fst = splitKeep '\n' code := by rw [← hL]; exact readTLines32_fst _ _ _ _
  have htext : slmText m = code := by
    have := K.text
    rw [List.reverse_reverse] at this
    rw [this, hfst, splitKeep_flatten]
  have hrender : slmMappings32 MapCtx.new m = linesMapping32 none MapCtx.new L := by
    have := K.render MapCtx.new
    rwa [List.reverse_reverse] at this
  have T0 : Tabled MapCtx.new := ⟨fun s i o h => by simp [MapCtx.new] at h, by simp [MapCtx.new]⟩
  have A0 : Apart MapCtx.new := fun s s' i o o' h => by simp [MapCtx.new] at h
  have T := (linesMapping32_tabled L none MapCtx.new T0).1
  have hall : ∀ l s o k, (l, some (s, o, k)) ∈ L → (∀ i, s = some i → i ∈ S) ∧ k < 2 ^ 32 := by
    rw [← hL]; exact readTLines32_files _ _ _ _ (fun _ _ _ e => by cases e)
  have hof : ∀ p ∈ (linesMapping32 none MapCtx.new L).2.sources, ∀ i, p.1 = some i → i ∈ S :=
    linesMapping32_files (P := fun s => ∀ i, s = some i → i ∈ S) L none MapCtx.new (fun l s o k hm => (hall l s o k hm).1)
      (fun p hp => by simp [MapCtx.new] at hp)
  have hcount : (linesMapping32 none MapCtx.new L).2.sources.length ≤ S.length + 1 := by
    have := List.Nodup.length_le_of_subset (l₂ := none :: S.map some) T.nodup (fun s hs => by
      obtain ⟨p, hp, rfl⟩ := List.mem_map.1 hs
      cases e : p.1 with
      | none => simp
      | some i => simpa using hof p hp i e)
    simpa using this
  generalize hr : slmToStringWithSourceMap32 m f = r at *
  have hr' := hr
  unfold slmToStringWithSourceMap32 at hr'
  rw [hrender, htext] at hr'
  dsimp only at hr'
  have hsrc : r.map.sources = (linesMapping32 none MapCtx.new L).2.sources.map fun p => p.1.getD (-1) := by rw [← hr']
  have hcon : r.map.sourcesContent = (linesMapping32 none MapCtx.new L).2.sources.filterMap fun p => p.2.2 := by rw [← hr']
  have hmap : r.map.mappings = (linesMapping32 none MapCtx.new L).1 := by rw [← hr']
  have hlen : r.map.sources.length = (linesMapping32 none MapCtx.new L).2.sources.length := by rw [hsrc, List.length_map]
  obtain ⟨n', n1, n2, n3⟩ := lines_back32 (S := r.map.sources) (C := r.map.sourcesContent) hnd (by omega) L MapCtx.new
    (0, 1) none none (by intro e; rw [e] at hfst; exact splitKeep_ne_nil _ _ hfst.symm)
    (by rw [hfst]; exact codeLines_splitKeep code) rfl T0 A0 ⟨rfl, rfl⟩ ⟨fun _ => rfl, fun _ _ _ e => by cases e⟩
    (by rw [hlen]; exact Nat.le_refl _) (fun l s o k hm => (hall l s o k hm).2)
    (by rw [← hL]; exact readTLines32_stays _ _ _ _)
  have n1' : Each (fun m xss => leads (cut ',' m) = some xss)
      ((splitDrop ';' r.map.mappings).take (splitKeep '\n' code).length) n' := by
    rw [hmap, List.take_of_length_le]
    · exact n1
    · rw [n3, ← hfst, List.length_map]; exact Nat.le_refl _
  obtain ⟨m', e', p', K'⟩ := slmFromString32_tlines code r.map.sources r.map.sourcesContent r.map.mappings n' n1'
  refine ⟨by rw [← hr'], m', e', ?_⟩
  have hren : renamed r.map.sources r.map.sourcesContent MapCtx.new = MapCtx.new := rfl
  rw [hren, hfst] at n2
  have r1 : slmMappings32 MapCtx.new m' = ((linesMapping32 none MapCtx.new L).1,
      renamed r.map.sources r.map.sourcesContent (linesMapping32 none MapCtx.new L).2) := by
    have := K'.render MapCtx.new
    rw [List.reverse_reverse] at this
    rw [this]
    exact n2
  have r2 : slmText m' = code := by
    have := K'.text
    rw [List.reverse_reverse] at this
    rw [this, readTLines32_fst, splitKeep_flatten]
  unfold slmToStringWithSourceMap32
  rw [r1, r2]
  dsimp only [renamed]
  have f1 : ((List.range (linesMapping32 none MapCtx.new L).2.sources.length).map fun i =>
      (r.map.sources[i]?, i, r.map.sourcesContent[i]?)).map (fun p => p.1.getD (-1)) =
      (linesMapping32 none MapCtx.new L).2.sources.map fun p => p.1.getD (-1) := by
    rw [List.map_map, ← hlen]
    exact (map_range_getD _).trans hsrc
  have f2 : ((List.range (linesMapping32 none MapCtx.new L).2.sources.length).map fun i =>
      (r.map.sources[i]?, i, r.map.sourcesContent[i]?)).filterMap (fun p => p.2.2) =
      (linesMapping32 none MapCtx.new L).2.sources.filterMap fun p => p.2.2 := by
    rw [List.filterMap_map, ← hlen]
    refine (filterMap_range _ _).trans ?_
    rw [List.take_of_length_le, hcon]
    rw [hcon, hlen]
    exact List.length_filterMap_le _ _
  rw [f1, f2]
  exact hr'

/-- C87: with the arithmetic of the program, a map read and rendered, then read and rendered again, is the same. Whatever
the numbers in the map. -/
theorem C87_wasm_partial (code : Str) (S C : List Int) (mappings : Str) (m : Slm) (f : Option Int)
    (h : slmFromString32 code S C mappings = .ok m) (hS : (-1) ∉ S) (h32 : S.length < 2 ^ 32) :
    (slmToStringWithSourceMap32 m f).source = code ∧
    ∃ m', slmFromString32 code (slmToStringWithSourceMap32 m f).map.sources
        (slmToStringWithSourceMap32 m f).map.sourcesContent (slmToStringWithSourceMap32 m f).map.mappings = .ok m' ∧
      slmToStringWithSourceMap32 m' f = slmToStringWithSourceMap32 m f := by
  refine C87_wasm_distinct_partial code S C mappings m f h h32 ?_
  obtain ⟨n, hn⟩ : ∃ n, Each (fun m xss => leads (cut ',' m) = some xss)
      ((splitDrop ';' mappings).take (splitKeep '\n' code).length) n := by
    unfold slmFromString32 at h
    split at h
    · cases h
    · rename_i st rest e
      exact lfLines32_reads _ _ _ e
  obtain ⟨m1, e1, p, K⟩ := slmFromString32_tlines code S C mappings n hn
  rw [h] at e1
  cases e1
  generalize hL : readTLines32 S C (0, 1) n none (splitKeep '\n' code) = L at K
  have hrender : slmMappings32 MapCtx.new m = linesMapping32 none MapCtx.new L := by
    have := K.render MapCtx.new
    rwa [List.reverse_reverse] at this
  have T := (linesMapping32_tabled L none MapCtx.new
    ⟨fun s i o h => by simp [MapCtx.new] at h, by simp [MapCtx.new]⟩).1
  have hall : ∀ l s o k, (l, some (s, o, k)) ∈ L → (∀ i, s = some i → i ∈ S) ∧ k < 2 ^ 32 := by
    rw [← hL]; exact readTLines32_files _ _ _ _ (fun _ _ _ e => by cases e)
  have hof : ∀ p ∈ (linesMapping32 none MapCtx.new L).2.sources, ∀ i, p.1 = some i → i ∈ S :=
    linesMapping32_files (P := fun s => ∀ i, s = some i → i ∈ S) L none MapCtx.new (fun l s o k hm => (hall l s o k hm).1)
      (fun p hp => by simp [MapCtx.new] at hp)
  unfold slmToStringWithSourceMap32
  rw [hrender]
  exact nodup_getD T.nodup fun p hp e => hS (hof p hp _ e)

/-- The two rendered maps, files, contents and mappings of each. -/
def twice32 (code : Str) (S C : List Int) (mappings : Str) :
    Option ((List Int × List Int × Str) × (List Int × List Int × Str)) :=
  (slmFromString32 code S C mappings).toOption.bind fun m =>
    let r := (slmToStringWithSourceMap32 m none).map
    (slmFromString32 code r.sources r.sourcesContent r.mappings).toOption.map fun m' =>
      let r' := (slmToStringWithSourceMap32 m' none).map
      ((r.sources, r.sourcesContent, r.mappings), (r'.sources, r'.sourcesContent, r'.mappings))

/-- With a file named -1 beside one that is missing, the two are written alike and read as one. -/
theorem C87_wasm_not_minus_one : twice32 "a\nb".toList [-1] [] "AAAA;AOAA".toList =
    some (([-1, -1], [], "AAAA;ACAA".toList), ([-1], [], "AAAA;AAAA".toList)) := by
  decide +kernel

/-! Non-trivial cases: a node that goes on past line 2^32 - 1; and the case of `Props/C87.lean`. -/

example : twice32 "a\n\nb\nc".toList [5] [] "AA8/////HA".toList =
    some (([5], [], "AA8/////HA;AACA;;A".toList), ([5], [], "AA8/////HA;AACA;;A".toList)) := by
  decide +kernel

example : twice32 "a\n\nb\n \n\nc;\n".toList [8, 5, 8] [3] ";A,ACCA,AADA;;ADAA;C,ACEA;;AOAC;".toList =
    some (([5, 8], [3], ";AACA;;ACDA;ADEA;;".toList), ([5, 8], [3], ";AACA;;ACDA;ADEA;;".toList)) := by
  decide +kernel

end WS
