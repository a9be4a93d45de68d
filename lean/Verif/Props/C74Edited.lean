import Verif.Props.C74
import Verif.Props.C66
/-!
# C74: edited objects in programs that use all the classes

C65 in programs that use the sources, `CachedSource`s, source nodes and list maps together. The order of files
matters to edited objects, and statements on nodes and list maps mention files, too.
-/

namespace WS
open Spec

/-! ## Spec -/

/-- A file name that is not left out. -/
def Spec.fileNamed : Option (List Char) → List JVal
  | none => []
  | some [] => []
  | some (c :: s) => [some (c :: s)]

/-- The files and names that a statement mentions, in order. -/
def Spec.AOp.mentions : AOp → List JVal
  | .c (.js o) => Spec.JOp.mentions o
  | .n (.js o) => Spec.JOp.mentions o
  | .n (.newNode _ _ source _) => fileNamed source
  | .l (.js o) => Spec.JOp.mentions o
  | .l (.newSource s source _ _) => if s = [] then [] else fileNamed source
  | .l (.newSingle s source _ _) => if s = [] then [] else fileNamed source
  | .l (.newMap _ source _) => fileNamed source
  | .l (.fromString _ sources _ _ _) => sources
  | .l (.add _ _ source _) => fileNamed source
  | .l (.prepend _ _ source _) => fileNamed source
  | _ => []

/-- Those that a program mentions. -/
def Spec.amentions (ops : List AOp) : List JVal := ops.flatMap Spec.AOp.mentions

/-- Requests to replace do not end before they begin. -/
def Spec.AOp.Ahead (op : AOp) : Prop := ∀ o, Spec.AOp.onSources op = some (.js o) → Spec.JOp.Ahead o

/-! ## The string table -/

theorem fileNamed_truthy (source : Option Str) :
    fileNamed source = match truthy source with | none => [] | some s => [some s] := by
  match source with
  | none => rfl
  | some [] => rfl
  | some (c :: s) => rfl

theorem Numbered.names {w : LWorld} {V : List JVal} (N : Numbered w.base.strs V) (source : Option Str) (original : JVal) :
    Numbered (w.names source original).2.2.base.strs (V ++ fileNamed source) := by
  rw [fileNamed_truthy]
  unfold LWorld.names
  cases truthy source with
  | none => simpa using N
  | some s => exact (N.add (some s)).addUnchecked original

theorem LOp.run_numbered {w w' : LWorld} {V : List JVal} (N : Numbered w.base.strs V) {op : LOp} (hj : ∀ o, op ≠ .js o)
    {a : LAnswer} (e : op.run w = .ok (a, w')) : Numbered w'.base.strs (V ++ Spec.AOp.mentions (.l op)) := by
  have N' : Numbered w.base.strs (V ++ []) := by simpa using N
  cases op with
  | js op => exact absurd rfl (hj op)
  | newCode s => cases e; exact N'
  | newSource s source original line =>
    simp only [LOp.run] at e
    split at e
    · rename_i h; cases e; simp only [Spec.AOp.mentions, h, if_true]; exact N'
    · rename_i h; cases e; simp only [Spec.AOp.mentions, h, if_false]; exact N.names source original
  | newSingle s source original line =>
    simp only [LOp.run] at e
    split at e
    · rename_i h; cases e; simp only [Spec.AOp.mentions, h, if_true]; exact N'
    · rename_i h
      split at e
      · cases e
      · cases e; simp only [Spec.AOp.mentions, h, if_false]; exact N.names source original
  | newEmpty => cases e; exact N'
  | newMap x source original =>
    simp only [LOp.run] at e
    simp only [Spec.AOp.mentions]
    split at e
    · rename_i h
      cases e
      rw [fileNamed_truthy, h.2]; exact N'
    · simp only [Except.map_ok_iff, Except.bind_ok_iff] at e
      obtain ⟨w2, ⟨-, -, h1⟩, h2⟩ := e
      cases h2
      simp only [LWorld.add, Except.bind_ok_iff, Except.map_ok_iff] at h1
      obtain ⟨_, -, _, -, _, -, rfl⟩ := h1
      exact Numbered.names (w := w.put (.map [])) N source original
  | newArray as =>
    simp only [LOp.run, Except.map_ok_iff] at e
    obtain ⟨_, -, h2⟩ := e
    cases h2
    exact N'
  | fromString code sources contents names mappings =>
    simp only [LOp.run, Except.map_ok_iff] at e
    obtain ⟨m, h1, h2⟩ := e
    cases h2
    exact (N.internAll sources).internAllNew contents
  | listMap j c md =>
    simp only [LOp.run] at e
    split at e
    · cases e
    · split at e
      · cases e
      · split at e
        · cases e
        · rename_i hc
          cases e
          show Numbered _ (V ++ [])
          rw [(World.call_strs hc).1]; exact N'
        · cases e
  | add i x source original =>
    simp only [LOp.run, Except.map_ok_iff] at e
    obtain ⟨w2, h1, h2⟩ := e
    cases h2
    simp only [LWorld.add, Except.bind_ok_iff, Except.map_ok_iff] at h1
    obtain ⟨_, -, _, -, _, -, rfl⟩ := h1
    exact N.names source original
  | prepend i x source original =>
    simp only [LOp.run, Except.map_ok_iff] at e
    obtain ⟨w2, h1, h2⟩ := e
    cases h2
    simp only [LWorld.prepend, Except.bind_ok_iff, Except.map_ok_iff] at h1
    obtain ⟨_, -, _, -, _, -, rfl⟩ := h1
    exact N.names source original
  | clone i => cases e
  | mapCode i f =>
    simp only [LOp.run] at e
    split at e
    · cases e
    · simp only [Except.bind_ok_iff] at e
      obtain ⟨m, h1, h2⟩ := e
      split at h2
      · cases h2
      · cases h2; exact N'
  | toString i =>
    simp only [LOp.run, Except.map_ok_iff] at e
    obtain ⟨_, -, h2⟩ := e
    cases h2
    exact N'
  | render i =>
    simp only [LOp.run, Except.map_ok_iff] at e
    obtain ⟨m, h1, h2⟩ := e
    cases h2
    exact N'

theorem NOp.run_numbered {w w' : NWorld} {V : List JVal} (N : Numbered w.base.strs V) {op : NOp} (hj : ∀ o, op ≠ .js o)
    {a : LAnswer} (e : op.run w = .ok (a, w')) : Numbered w'.base.strs (V ++ Spec.AOp.mentions (.n op)) := by
  have N' : Numbered w.base.strs (V ++ []) := by simpa using N
  cases op with
  | js op => exact absurd rfl (hj op)
  | newNode line col source items =>
    simp only [NOp.run, Except.map_ok_iff] at e
    obtain ⟨w2, h1, h2⟩ := e
    cases h2
    rw [NWorld.addItems_base h1]
    simp only [Spec.AOp.mentions]
    rw [fileNamed_truthy]
    cases truthy source with
    | none => exact N'
    | some s => exact N.add (some s)
  | node j c m =>
    simp only [NOp.run] at e
    split at e
    · cases e
    · split at e
      · cases e
      · split at e
        · cases e
        · rename_i hc
          cases e
          show Numbered _ (V ++ [])
          rw [(World.call_strs hc).1]; exact N'
        · cases e
  | add i items =>
    simp only [NOp.run, Except.map_ok_iff] at e
    obtain ⟨w2, h1, h2⟩ := e
    cases h2
    rw [NWorld.addItems_base h1]
    exact N'
  | render i =>
    simp only [NOp.run] at e
    split at e
    · cases e
    · cases e
    · cases e; exact N'

theorem mentions_plain (t : CThings) (op : COp) : Spec.mentions (op.plain t) = Spec.AOp.mentions (.c op) := by
  cases op with
  | js o =>
    simp only [COp.plain, Spec.AOp.mentions]
    cases h : o.quiet with
    | true => cases o <;> first | rfl | cases h
    | false => simp [Spec.mentions]
  | _ => rfl

theorem mentions_onSources {op : AOp} {c : COp} (h : Spec.AOp.onSources op = some c) :
    Spec.AOp.mentions op = Spec.AOp.mentions (.c c) := by
  cases op with
  | c q => cases h; rfl
  | n q => cases q <;> cases h; rfl
  | l q => cases q <;> cases h; rfl
  | cachedNode => cases h
  | cachedList => cases h

theorem Exact.plainMaps {op : JOp} (h : Spec.JOp.Exact op) : op.PlainMaps := by
  cases op <;> try trivial
  obtain ⟨⟨ss, cs, ns, mp, rfl, -⟩, h2⟩ := h
  refine ⟨⟨_, _, _, _, rfl⟩, fun i hi => ?_⟩
  obtain ⟨ss, cs, ns, mp, rfl, -⟩ := h2 i hi
  exact ⟨_, _, _, _, rfl⟩

theorem AOp.run_numbered {w w' : AWorld} {t : CThings} (S : w.c.Sound t) {V : List JVal} (N : Numbered w.base.strs V)
    {op : AOp} (hs : Spec.AOp.Suited op) {a : AAnswer} (e : op.run w = .ok (a, w')) :
    Numbered w'.base.strs (V ++ Spec.AOp.mentions op) := by
  cases hc : Spec.AOp.onSources op with
  | some c =>
    obtain ⟨x, v, h1, rfl⟩ := AOp.run_onSources hc e
    obtain ⟨tr, h2, h3⟩ := COp.run_trace S h1
    have hall : ∀ o ∈ tr, o.PlainMaps := by
      refine forall_loud (fun o h => Exact.plainMaps (quiet_exact o h)) h3 fun o ho => ?_
      rcases COp.plain_js ho with rfl | h
      · exact Exact.plainMaps (hs.1 o hc).2.2.2
      · cases o <;> first | trivial | skip
        cases c <;> simp only [COp.plain] at ho <;> first | (cases List.mem_singleton.1 ho) | (cases ho) | skip
        split at ho
        · cases ho
        · cases List.mem_singleton.1 ho
          exact Exact.plainMaps (hs.1 _ hc).2.2.2
    have := Numbered.runFrom tr N hall h2
    rw [← mentions_loud, h3, mentions_plain, ← mentions_onSources hc] at this
    exact this
  | none =>
    rcases AOp.run_others hc e with ⟨o, x, v, hj, h, rfl, h2⟩ | ⟨o, x, v, hj, h, rfl, h2⟩
    · have := NOp.run_numbered (w := w.n) N hj h
      rcases h2 with rfl | ⟨k, p, j, rfl, h2, rfl⟩
      · exact this
      · exact this
    · have := LOp.run_numbered (w := w.l) N hj h
      rcases h2 with rfl | ⟨k, p, j, rfl, h2, rfl⟩
      · exact this
      · exact this

theorem AWorld.runFrom_numbered : ∀ {ops : List AOp} {w w' : AWorld} {t : CThings} {V : List JVal}, w.c.Sound t →
    Numbered w.base.strs V → (∀ op ∈ ops, Spec.AOp.Suited op) → w.runFrom ops = .ok w' →
    Numbered w'.base.strs (V ++ amentions ops)
  | [], _, _, _, V, _, N, _, e => by cases e; simpa [amentions] using N
  | op :: ops, w, w', t, V, S, N, hs, e => by
    simp only [AWorld.runFrom, Except.bind_ok_iff] at e
    obtain ⟨⟨a, w1⟩, h1, h2⟩ := e
    have S1 := AWorld.runFrom_sound (ops := [op]) (w' := w1) S (fun o ho => Suited.proper (hs o (by simp_all)))
      (by simp [AWorld.runFrom, h1, Except.bind])
    have := AWorld.runFrom_numbered S1 (AOp.run_numbered S N (hs op (by simp)) h1) (fun o ho => hs o (by simp [ho])) h2
    rw [List.append_assoc] at this
    exact this

/-- The table after a program numbers the strings in the order of first mention. -/
theorem AWorld.run_numbered {ops : List AOp} {w : AWorld} (hs : ∀ op ∈ ops, Spec.AOp.Suited op)
    (r : AWorld.run ops = .ok w) : Numbered w.base.strs (amentions ops) := by
  have := AWorld.runFrom_numbered AWorld.empty_sound (V := []) Numbered.empty hs r
  simpa using this

theorem plainFrom_ahead : ∀ {ops : List COp} (t : CThings), (∀ o, .js o ∈ ops → Spec.JOp.Ahead o) →
    ∀ o ∈ plainFrom t ops, Spec.JOp.Ahead o
  | [], _, _, o, ho => by cases ho
  | op :: ops, t, h, o, ho => by
    rcases List.mem_append.1 ho with ho | ho
    · cases op with
      | js p =>
        simp only [COp.plain] at ho
        split at ho
        · cases ho
        · cases List.mem_singleton.1 ho; exact h _ (by simp)
      | newPrefix => cases List.mem_singleton.1 ho; trivial
      | newReplace => cases List.mem_singleton.1 ho; trivial
      | newConcat => cases List.mem_singleton.1 ho; trivial
      | add => cases List.mem_singleton.1 ho; trivial
      | _ => cases ho
    · have := plainFrom_ahead (cstep t op) (fun o ho => h o (by simp [ho])) o ho
      exact this

theorem AInv.edited {w : AWorld} {ops : List AOp} {s : AState} (I : AInv U w s) (h : TellsAll .start ops s)
    (N : Numbered w.base.strs (amentions ops)) (hah : ∀ op ∈ ops, Spec.AOp.Ahead op) {j k : Nat}
    {md : Bool} {b b2 : World}
    (ho : Orderly (cthings (sourceOps ops)).things (jmade (cplain (sourceOps ops))) (amentions ops) (.obj j))
    (e : (JOp.sourceAndMap j true md).run w.base = .ok (.pair k, b)) (e2 : World.Lasts k b b2) :
    ∃ m, JCarries (cthings (sourceOps ops)).things (jmade (cplain (sourceOps ops))) (.obj j) m ∧
      KeepsPlaces b2 k m := by
  obtain ⟨h3, h4⟩ := TellsAll.sources h
  obtain ⟨A, J⟩ := I.lists.backed.inv
  have hahead : AllAhead (jthings s.js) := by
    refine allAhead s.js (fun j c rs h => by simp at h) ?_
    rw [h4]
    refine plainFrom_ahead _ fun o ho => ?_
    obtain ⟨op, h5, h6⟩ := List.mem_filterMap.1 ho
    exact hah op h5 o h6
  have T : Together (jmade s.js) (jthings s.js) :=
    together s.js (made := []) (st := []) ⟨rfl, fun j op x h => by simp at h⟩
  rw [← h3, ← h4, ← I.things] at ho ⊢
  exact World.emit_carries J I.lists.backed.labels I.nodes.base I.nodes.lined I.lists.backed.stable N T hahead
    (fun op h => I.exact op (List.mem_filter.1 h).1) (fun op h => (List.mem_filter.1 h).2) ho e e2

/-! ## The claim -/

/-- The map with columns of an object, edited or not: file, line and column.

`_partial`: as C65, the files in the order in which the statements of all classes mention them; no emitted maps
given back; the emitted pair is read afterwards. -/
theorem C74_edited_partial (ops more : List AOp) (w w1 w2 : AWorld) (j k : Nat) (module_ : Bool)
    (r : AWorld.run ops = .ok w) (hs : ∀ op ∈ ops, Spec.AOp.Suited op) (hah : ∀ op ∈ ops, Spec.AOp.Ahead op)
    (ho : Orderly (cthings (sourceOps ops)).things (jmade (cplain (sourceOps ops))) (amentions ops) (.obj j))
    (e : (AOp.c (.js (.sourceAndMap j true module_))).run w = .ok (.c (.js (.pair k)), w1))
    (hm : ∀ o ∈ more, ∀ c, Spec.AOp.onSources o = some c → c.Proper) (hk : ∀ o ∈ more, Spec.AOp.Spares k o)
    (e2 : w1.runFrom more = .ok w2) :
    ∃ m, JCarries (cthings (sourceOps ops)).things (jmade (cplain (sourceOps ops))) (.obj j) m ∧
      KeepsPlaces w2.base k m := by
  obtain ⟨s, h, I⟩ := AInv.of_run r hs
  have e3 := AWorld.then_lasts I.sound (fun c hc => by cases hc; trivial) e hm hk e2
  obtain ⟨x, h1, h2⟩ := AOp.run_js e
  cases h2
  exact I.edited h (AWorld.run_numbered hs r) hah ho h1 e3

/-- The same where the statements say exactly one thing (`m`). -/
theorem C74_edited_exact_partial (ops more : List AOp) (w w1 w2 : AWorld) (j k : Nat) (module_ : Bool) (m : PlacedMarks)
    (r : AWorld.run ops = .ok w) (hs : ∀ op ∈ ops, Spec.AOp.Suited op) (hah : ∀ op ∈ ops, Spec.AOp.Ahead op)
    (ho : Orderly (cthings (sourceOps ops)).things (jmade (cplain (sourceOps ops))) (amentions ops) (.obj j))
    (hst : Steady (cthings (sourceOps ops)).things (.obj j))
    (hc : JCarries (cthings (sourceOps ops)).things (jmade (cplain (sourceOps ops))) (.obj j) m)
    (e : (AOp.c (.js (.sourceAndMap j true module_))).run w = .ok (.c (.js (.pair k)), w1))
    (hm : ∀ o ∈ more, ∀ c, Spec.AOp.onSources o = some c → c.Proper) (hk : ∀ o ∈ more, Spec.AOp.Spares k o)
    (e2 : w1.runFrom more = .ok w2) : KeepsPlaces w2.base k m := by
  obtain ⟨m', h1, h2⟩ := C74_edited_partial ops more w w1 w2 j k module_ r hs hah ho e hm hk e2
  obtain ⟨s, h, I⟩ := AInv.of_run r hs
  obtain ⟨h3, h4⟩ := TellsAll.sources h
  have T : Together (jmade (cplain (sourceOps ops))) (cthings (sourceOps ops)).things := by
    rw [← h3, ← h4, ← I.things]
    exact together s.js (made := []) (st := []) ⟨rfl, fun j op x h => by simp at h⟩
  rw [hc.unique T hst h1] at h2
  exact h2

/-- The map that a `CachedSource` of such an object hands out: as the statements up to the moment it was emitted
say. -/
theorem C74_cached_edited_partial (lo ops more : List AOp) (w w1 w2 : AWorld) (op : AOp) (x : AAnswer) (k m : Nat)
    (o : Option JOpts) (hs : ∀ op ∈ lo ++ ops, Spec.AOp.Suited op) (hah : ∀ op ∈ lo ++ ops, Spec.AOp.Ahead op)
    (hm : ∀ o ∈ more, ∀ c, Spec.AOp.onSources o = some c → c.Proper) (hlo : ∀ op ∈ lo, Spec.AOp.asked op = none)
    (r : AWorld.run (lo ++ ops) = .ok w) (ha : Spec.AOp.asked op = some (k, o)) (hc : asksColumns o = true)
    (e : op.run w = .ok (x, w1)) (hx : Spec.AAnswer.theMap x = some (some m))
    (hk : ∀ o ∈ ops ++ more, Spec.AOp.Spares m o) (e2 : w1.runFrom more = .ok w2) :
    ∃ j a rest, ops = a ++ rest ∧ (cthings (sourceOps (lo ++ ops))).stands[k]? = some j ∧
      (Orderly (cthings (sourceOps (lo ++ a))).things (jmade (cplain (sourceOps (lo ++ a)))) (amentions (lo ++ a))
          (.obj j) →
        ∃ mk, JCarries (cthings (sourceOps (lo ++ a))).things (jmade (cplain (sourceOps (lo ++ a)))) (.obj j) mk ∧
          KeepsPlaces w2.base m mk) := by
  obtain ⟨j, a, rest, u, c, md, b1, h1, h2, h3, h4, h5, h6⟩ := AWorld.origin lo ops more w w1 w2 op x k m o
    (fun q hq => by
      rcases List.mem_append.1 hq with hq | hq
      · exact Suited.proper (hs q hq)
      · exact hm q hq) hlo r ha e hx hk e2
  refine ⟨j, a, rest, h1, h2, fun ho => ?_⟩
  obtain rfl : c = true := by rcases h4 with ⟨h, -⟩ | ⟨h, -⟩ <;> simp [h, hc]
  have hin : ∀ q ∈ lo ++ a, q ∈ lo ++ ops := fun q hq => by
    rcases List.mem_append.1 hq with hq | hq <;> simp [h1, hq]
  obtain ⟨s, h, I⟩ := AInv.of_run h3 fun q hq => hs q (hin q hq)
  exact I.edited h (AWorld.run_numbered (fun q hq => hs q (hin q hq)) h3) (fun q hq => hah q (hin q hq)) ho h5 h6

/-! Non-trivial case: a statement is deleted from code that a `CachedSource` stands for, and code from another file
follows; a node and a list map mention both files before. -/

/-- Statements on sources. -/
def c74Edits : List AOp :=
  [.c (.js (.newOriginal "ab;cd;".toList "a.js".toList)), .c (.newCached (.obj 0)), .c (.newReplace (.ref (.cached 0))),
   .c (.js (.replace 1 3 5 [])), .c (.js (.newOriginal "x".toList "x.js".toList)),
   .c (.js (.newConcat [.obj 1, .obj 2]))]

/-- Statements before them. -/
def c74Before : List AOp :=
  [.n (.newNode 7 0 (some "a.js".toList) [.str "z".toList]), .l (.newSource "x".toList (some "x.js".toList) none 1)]

/-- What they say of the last object. -/
def c74Edited : PlacedMarks := c63From "ab;" "a.js" 1 0 none ++ c63From "x" "x.js" 1 0 none

theorem c74Edits_suited : ∀ op ∈ c74Edits, Spec.AOp.Suited op := by
  simp only [c74Edits, List.forall_mem_cons, Spec.AOp.Suited]
  refine ⟨⟨fun o h => ?_, fun o h => by cases h⟩, ⟨fun o h => ?_, fun o h => by cases h⟩,
    ⟨fun o h => ?_, fun o h => by cases h⟩, ⟨fun o h => ?_, fun o h => by cases h⟩,
    ⟨fun o h => ?_, fun o h => by cases h⟩, ⟨fun o h => ?_, fun o h => by cases h⟩, by simp⟩
  all_goals cases h
  · exact ⟨trivial, by simp only [Spec.JOp.FewLines]; unfold Spec.FewLines; decide, trivial, trivial⟩
  · refine ⟨?_, by simp [Spec.JOp.FewLines, Spec.FewLines], trivial, trivial⟩
    simp only [JOp.Proper, Spec.Proper]
    decide +kernel
  · exact ⟨trivial, by simp only [Spec.JOp.FewLines]; unfold Spec.FewLines; decide, trivial, trivial⟩
  · exact ⟨trivial, trivial, trivial, trivial⟩

theorem c74Edits_ahead : ∀ op ∈ c74Edits, Spec.AOp.Ahead op := by
  simp only [c74Edits, List.forall_mem_cons]
  refine ⟨fun o h => ?_, fun o h => ?_, fun o h => ?_, fun o h => ?_, fun o h => ?_, fun o h => ?_, by simp⟩
  all_goals cases h
  · trivial
  · simp only [Spec.JOp.Ahead]; decide +kernel
  · trivial
  · trivial

/-- The objects and the statements that make them, whatever nodes and list maps there are. -/
theorem c74Edits_state {pre : List AOp} (h : sourceOps pre = []) :
    (cthings (sourceOps (pre ++ c74Edits))).things = [.leaf "ab;cd;".toList [], .replaced (.obj 0) [⟨3, 5, []⟩],
      .leaf "x".toList [], .joined [.obj 1, .obj 2]] ∧
    jmade (cplain (sourceOps (pre ++ c74Edits))) = [.newOriginal "ab;cd;".toList "a.js".toList, .newReplace (.obj 0),
      .newOriginal "x".toList "x.js".toList, .newConcat [.obj 1, .obj 2]] := by
  have : sourceOps (pre ++ c74Edits) = sourceOps c74Edits := by
    rw [sourceOps, List.filterMap_append, ← sourceOps, h]; rfl
  rw [this]
  exact ⟨by decide +kernel, by decide +kernel⟩

theorem c74Edits_orderly {pre : List AOp} (h : sourceOps pre = []) {V : List JVal}
    (hV : Forwards V (ownPlaces (some "a.js".toList) (1, 0) (segments "ab;cd;".toList) ++
      ownPlaces (some "x.js".toList) (1, 0) (segments "x".toList))) :
    Orderly (cthings (sourceOps (pre ++ c74Edits))).things (jmade (cplain (sourceOps (pre ++ c74Edits)))) V (.obj 3) := by
  obtain ⟨h1, h2⟩ := c74Edits_state h
  rw [h1, h2]
  refine .forwards (u := [ownPlaces (some "a.js".toList) (1, 0) (segments "ab;cd;".toList),
    ownPlaces (some "x.js".toList) (1, 0) (segments "x".toList)].flatten) (.joined (items := [.obj 1, .obj 2]) rfl rfl ?_) ?_
  · intro k i m hi hm
    match k, hi, hm with
    | 0, hi, hm => cases hi; cases hm; exact .replaced (c := .obj 0) rfl (.leaf rfl (.original rfl))
    | 1, hi, hm => cases hi; cases hm; exact .leaf rfl (.original rfl)
    | k + 2, hi, hm => simp at hi
  · simpa using hV

theorem c74Edits_carries {pre : List AOp} (h : sourceOps pre = []) :
    Steady (cthings (sourceOps (pre ++ c74Edits))).things (.obj 3) ∧
    JCarries (cthings (sourceOps (pre ++ c74Edits))).things (jmade (cplain (sourceOps (pre ++ c74Edits)))) (.obj 3)
      c74Edited := by
  obtain ⟨h1, h2⟩ := c74Edits_state h
  rw [h1, h2]
  constructor
  · refine .joined (items := [.obj 1, .obj 2]) rfl ?_
    intro i hi
    simp only [List.mem_cons, List.not_mem_nil, or_false] at hi
    rcases hi with rfl | rfl
    · exact .replaced (c := .obj 0) (rs := [⟨3, 5, []⟩]) rfl (.leaf rfl)
    · exact .leaf rfl
  · have e : c74Edited = [c63From "ab;" "a.js" 1 0 none, c63From "x" "x.js" 1 0 none].flatten := by decide +kernel
    rw [e]
    refine .joined (items := [.obj 1, .obj 2]) rfl rfl ?_
    intro k i m hi hm
    match k, hi, hm with
    | 0, hi, hm =>
      cases hi; cases hm
      refine .replaced (es := [(⟨3, 5, []⟩, 0)]) (c := .obj 0) (rs := [⟨3, 5, []⟩])
        (m := ownPlaces (some "a.js".toList) (1, 0) (segments "ab;cd;".toList)) rfl
        ⟨.refl _, by simp⟩ (.leaf rfl (.original rfl))
    | 1, hi, hm =>
      cases hi; cases hm
      exact .leaf (m := ownPlaces (some "x.js".toList) (1, 0) (segments "x".toList)) rfl (.original rfl)
    | k + 2, hi, hm => simp at hi

example : (∀ op ∈ c74Before ++ c74Edits, Spec.AOp.Suited op) ∧ (∀ op ∈ c74Before ++ c74Edits, Spec.AOp.Ahead op) ∧
    Orderly (cthings (sourceOps (c74Before ++ c74Edits))).things (jmade (cplain (sourceOps (c74Before ++ c74Edits))))
      (amentions (c74Before ++ c74Edits)) (.obj 3) := by
  refine ⟨fun op h => ?_, fun op h => ?_, c74Edits_orderly (by decide +kernel) (by decide +kernel)⟩
  · rcases List.mem_append.1 h with h | h
    · simp only [c74Before, List.mem_cons, List.not_mem_nil, or_false] at h
      rcases h with rfl | rfl
      · refine ⟨(fun o h => by cases h), fun o h => ?_⟩
        cases h
        exact fun _ => by decide
      · exact ⟨(fun o h => by cases h), fun o h => by cases h⟩
    · exact c74Edits_suited op h
  · rcases List.mem_append.1 h with h | h
    · simp only [c74Before, List.mem_cons, List.not_mem_nil, or_false] at h
      rcases h with rfl | rfl <;> exact fun o h => by cases h
    · exact c74Edits_ahead op h
example : (answersFrom AWorld.empty (c74Before ++ c74Edits ++ [.c (.js (.sourceAndMap 3 true true)),
      .c (.js (.get 0 .source)), .c (.js (.get 0 .sources)), .c (.js (.get 0 .mappings))])).drop 8 =
    [.c (.js (.pair 0)), .c (.js (.field (.text "ab;x".toList))),
     .c (.js (.field (.list [some "a.js".toList, some "x.js".toList]))),
     .c (.js (.field (.text "AAAA,GAAG,ACAH".toList)))] := by decide +kernel

/-! ## A node in the way -/

/-- A node that is not used. -/
def c74Unused : List AOp := [.n (.newNode 1 0 (some "x.js".toList) [])]

/-- A node that nothing uses makes the map of an edited object wrong: the files are in order if only the statements
on sources are looked at, and without the node the map is right (`C74_edited_partial`), but with it the map says that
`x` comes from the place of the deleted statement. -/
theorem C74_unused_node :
    (∀ op ∈ c74Unused ++ c74Edits, Spec.AOp.Suited op) ∧ (∀ op ∈ c74Unused ++ c74Edits, Spec.AOp.Ahead op) ∧
    Orderly (cthings (sourceOps (c74Unused ++ c74Edits))).things (jmade (cplain (sourceOps (c74Unused ++ c74Edits))))
      (mentions (cplain (sourceOps (c74Unused ++ c74Edits)))) (.obj 3) ∧
    Orderly (cthings (sourceOps ([] ++ c74Edits))).things (jmade (cplain (sourceOps ([] ++ c74Edits))))
      (amentions c74Edits) (.obj 3) ∧
    ∃ w w1, AWorld.run (c74Unused ++ c74Edits) = .ok w ∧
      (AOp.c (.js (.sourceAndMap 3 true true))).run w = .ok (.c (.js (.pair 0)), w1) ∧
      ¬ ∃ m, JCarries (cthings (sourceOps (c74Unused ++ c74Edits))).things
        (jmade (cplain (sourceOps (c74Unused ++ c74Edits)))) (.obj 3) m ∧ KeepsPlaces w1.base 0 m := by
  have hsuit : ∀ op ∈ c74Unused ++ c74Edits, Spec.AOp.Suited op := by
    intro op h
    rcases List.mem_append.1 h with h | h
    · cases List.mem_singleton.1 h
      refine ⟨(fun o h => by cases h), fun o h => ?_⟩
      cases h
      exact fun _ => by decide
    · exact c74Edits_suited op h
  have hso : sourceOps c74Unused = [] := rfl
  refine ⟨hsuit, fun op h => ?_, c74Edits_orderly hso (by decide +kernel), c74Edits_orderly rfl (by decide +kernel), ?_⟩
  · rcases List.mem_append.1 h with h | h
    · cases List.mem_singleton.1 h
      exact fun o h => by cases h
    · exact c74Edits_ahead op h
  · have key : ((AWorld.run (c74Unused ++ c74Edits)).toOption.bind fun w =>
        ((AOp.c (.js (.sourceAndMap 3 true true))).run w).toOption.map fun x => (x.1,
          [JField.sources, .names, .mappings].map fun f => ((JOp.get 0 f).run x.2.base).toOption.map Prod.fst)) =
        some (.c (.js (.pair 0)), [some (.field (.list [some "a.js".toList, some "x.js".toList])),
          some (.field (.list [])), some (.field (.text "AAAA,GCAA,ADAG".toList))]) := by decide +kernel
    have tok : ∀ {ε α : Type} (x : α), (Except.ok x : Except ε α).toOption = some x := fun _ => rfl
    cases h1 : AWorld.run (c74Unused ++ c74Edits) with
    | error e => rw [h1] at key; cases key
    | ok w =>
      rw [h1] at key
      rw [tok, Option.bind_some] at key
      cases h2 : (AOp.c (.js (.sourceAndMap 3 true true))).run w with
      | error e => rw [h2] at key; cases key
      | ok x =>
        obtain ⟨a, w1⟩ := x
        rw [h2, tok] at key
        simp only [Option.map_some, List.map_cons, List.map_nil, Option.some.injEq, Prod.mk.injEq,
          List.cons.injEq, and_true] at key
        obtain ⟨rfl, k1, k2, k3⟩ := key
        have back : ∀ {f : JField} {v : JFieldVal}, ((JOp.get 0 f).run w1.base).toOption.map Prod.fst =
            some (.field v) → Reads w1.base 0 f v := by
          intro f v h
          cases hx : (JOp.get 0 f).run w1.base with
          | error e => rw [hx] at h; cases h
          | ok y =>
            rw [hx, tok] at h
            obtain ⟨y1, y2⟩ := y
            simp only [Option.map_some, Option.some.injEq] at h
            subst h
            exact ⟨_, hx⟩
        refine ⟨w, w1, rfl, h2, ?_⟩
        rintro ⟨m, g1, -, l, ns, s, ps, r1, r2, r3, r4, r5⟩
        obtain ⟨s', h, I⟩ := AInv.of_run h1 hsuit
        obtain ⟨h3, h4⟩ := TellsAll.sources h
        have T : Together (jmade (cplain (sourceOps (c74Unused ++ c74Edits))))
            (cthings (sourceOps (c74Unused ++ c74Edits))).things := by
          rw [← h3, ← h4, ← I.things]
          exact together s'.js (made := []) (st := []) ⟨rfl, fun j op x h => by simp at h⟩
        obtain ⟨hst, hcar⟩ := c74Edits_carries hso
        rw [hcar.unique T hst g1] at r5
        cases reads_unique r1 (back k1)
        cases reads_unique r2 (back k2)
        cases reads_unique r3 (back k3)
        have hp : points (idTable 2) (idTable 0) "AAAA,GCAA,ADAG".toList =
            some [⟨1, 0, some ⟨0, 1, 0, none⟩⟩, ⟨1, 3, some ⟨1, 1, 0, none⟩⟩, ⟨1, 3, some ⟨0, 1, 3, none⟩⟩] := by
          decide +kernel
        rw [show points (idTable 2) (idTable 0) "AAAA,GCAA,ADAG".toList = some ps from r4] at hp
        cases hp
        have := r5 3 'x' ⟨some "x.js".toList, 1, 0, none⟩ (by decide +kernel)
        exact absurd this (by decide +kernel)

end WS
