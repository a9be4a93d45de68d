import Verif.Props.C87
import Verif.Props.C78Contents
/-!
# C88: rounds of `new SourceMapSource(source, name, map)` and `sourceAndMap({columns: false})`

The pair that a `SourceMapSource` made of an ordinary object hands out for lines reads the same as every later pair that is
handed out when the text and the map of the pair before are made a `SourceMapSource` again.
-/

namespace WS
open Spec

/-! ## Spec -/

/-- Rounds, from the pair `k` on: the text and the map of the last pair are given to a new `SourceMapSource`, whose line pair
is the next one. Between the rounds there may be further statements, but none that gives or assigns to the last pair. -/
inductive Spec.LineRounds (w : World) (k : Nat) : World → Nat → Prop where
  | start : LineRounds w k w k
  | more {w1 w2 : World} {k' : Nat} {ops : List JOp} : LineRounds w k w1 k' → w1.runFrom ops = .ok w2 →
      (∀ op ∈ ops, ¬ op.gives k') → (∀ a, .set k' a ∉ ops) → LineRounds w k w2 k'
  | round {w1 w2 w3 : World} {k' k'' : Nat} {v n : List Char} {o : Option (List Char)} {a : JAnswer} :
      LineRounds w k w1 k' → Reads w1 k' .source (.text v) →
      (JOp.newSms v n (.emitted k') o none).run w1 = .ok (a, w2) →
      (JOp.sourceAndMap w1.objs.length false true).run w2 = .ok (.pair k'', w3) → LineRounds w k w3 k''

/-! ## Pairs -/

/-- The pair still has its map, and it is this one. -/
def Emitted.LinePair (code : Str) (r : SourceMap) (e : Emitted) : Prop :=
  e.modified = false ∧ e.wasm = some ⟨code, some r, none⟩

theorem LinePair.lasting (code : Str) (r : SourceMap) : Lasting (fun _ e => e.LinePair code r) := by
  refine ⟨fun _ h => h, ?_⟩
  rintro w e e' f v ⟨h1, h2⟩ h
  obtain ⟨c1, -, c2, -⟩ := Emitted.get_changes h
  refine ⟨c2.trans h1, ?_⟩
  rcases c1 with c | ⟨wm1, m, wm', a, b, c⟩
  · exact c.trans h2
  · rw [h2] at a; cases a
    simp only [WasmMap.getMap] at b
    cases b
    exact c

theorem linePair_new (code : Str) (r : SourceMap) : (Emitted.new ⟨code, some r, none⟩ false).LinePair code r := ⟨rfl, rfl⟩

theorem displays_of_reads {w : World} {k : Nat} {code : Str} {r : SourceMap} {f : JField} {v : JFieldVal}
    (hk : w.maps[k]? = some (Emitted.new ⟨code, some r, none⟩ false)) (h : Reads w k f v) :
    Displays w.strs false code r f v := by
  obtain ⟨w', h⟩ := h
  simp only [JOp.run, hk, Except.map_ok_iff] at h
  obtain ⟨⟨u, e'⟩, h1, h2⟩ := h
  cases h2
  exact Tells.of_get (Tells.new (wm := ⟨code, some r, none⟩) ⟨_, rfl⟩) h1

theorem resolve_of_values {w : World} {ids : List Int} {l : List JVal} (h : w.strs.values ids = some l) :
    w.resolve ids = .ok l := by
  simp only [StrTable.values, Option.map_eq_some_iff] at h
  obtain ⟨vs, h1, rfl⟩ := h
  simp only [World.resolve, h1]

theorem reads_of_displays {w : World} {k : Nat} {code : Str} {r : SourceMap} {f : JField} {v : JFieldVal}
    (hk : w.maps[k]? = some (Emitted.new ⟨code, some r, none⟩ false)) (h : Displays w.strs false code r f v) :
    Reads w k f v := by
  unfold Reads
  simp only [JOp.run, hk]
  cases f with
  | source => cases h; exact ⟨_, rfl⟩
  | sources =>
    obtain ⟨l, h1, rfl⟩ := h
    simp only [Emitted.get, Emitted.getSources, Emitted.new, Emitted.data, WasmMap.getMap, Except.bind, resolve_of_values h1]
    exact ⟨_, rfl⟩
  | contents =>
    obtain ⟨l, h1, rfl⟩ := h
    simp only [Emitted.get, Emitted.getContents, Emitted.new, Emitted.data, WasmMap.getMap, Except.bind, resolve_of_values h1]
    cases l <;> exact ⟨_, rfl⟩
  | mappings => cases h; exact ⟨_, rfl⟩
  | names => cases h; exact ⟨_, rfl⟩

/-! ## Source map sources -/

theorem newSms_gives {w w1 : World} {arg : MapArg} {v n : Str} {o : Option Str} {a : JAnswer}
    (e : (JOp.newSms v n arg o none).run w = .ok (a, w1)) :
    ∃ s hd w2 kind, ((w.internNew (some v)).2.intern (some n)).2.give arg = .ok (hd, w2) ∧
      w1.heap = w.heap ++ [.sms s] ∧ w1.objs = w.objs ++ [⟨w.heap.length, kind⟩] ∧ (∃ y, kind = .sms v y) ∧ s.map = hd ∧
      s.value = v := by
  simp only [JOp.run, Except.map_ok_iff] at e
  obtain ⟨w1', e, h⟩ := e
  cases h
  simp only [World.newSms, Except.bind_ok_iff] at e
  obtain ⟨⟨hd, w3⟩, h1, ⟨i, w4⟩, h2, h3⟩ := e
  dsimp only at h1 h2 h3
  simp only [World.giveInner] at h2
  have s1 := ((w.internNew_same (some v)).trans ((w.internNew (some v)).2.intern_same (some n))).trans (World.give_same h1)
  cases h2
  simp only [World.create, Except.map_ok_iff] at h3
  obtain ⟨⟨b, w5⟩, h4, rfl⟩ := h3
  obtain ⟨h, hr, rfl⟩ := World.call_ok h4
  simp only [Op.run] at hr
  cases hr
  cases truthy o with
  | none => exact ⟨_, _, w3, .sms v none, h1, by rw [← s1.heap], by rw [← s1.heap, ← s1.objs], ⟨_, rfl⟩, rfl, rfl⟩
  | some y => exact ⟨_, _, w3, .sms v (some y), h1, by rw [← s1.heap]; rfl, by rw [← s1.heap, ← s1.objs]; rfl,
      ⟨_, rfl⟩, rfl, rfl⟩

/-- What is handed out for lines. -/
theorem emit_lines {w w1 : World} {h0 : Heap} {os : List JObj} {s : Sms} {kind : JKind} {d : SmData} {k : Nat} {v : Str}
    (hh : w.heap = h0 ++ [.sms s]) (ho : w.objs = os ++ [⟨h0.length, kind⟩]) (hk : ∃ y, kind = .sms v y)
    (hd : s.map.data = some d) (e : (JOp.sourceAndMap os.length false true).run w = .ok (.pair k, w1)) :
    ∃ m, slmFromString s.value d.sources d.contents d.mappings = .ok m ∧ w1.strs = w.strs ∧
      w1.maps[k]? = some (Emitted.new ⟨(slmToStringWithSourceMap m none).source, some (slmToStringWithSourceMap m none).map, none⟩ false) := by
  obtain ⟨y, rfl⟩ := hk
  simp only [JOp.run, World.emit, ho, List.getElem?_concat_length, Bool.false_eq_true, if_false, Except.bind_ok_iff] at e
  obtain ⟨⟨a, w2⟩, h1, h2⟩ := e
  obtain ⟨h, hr, rfl⟩ := World.call_ok h1
  simp only [Op.run, Except.map_ok_iff] at hr
  obtain ⟨⟨m, h'⟩, hr, h3⟩ := hr
  cases h3
  cases h2
  refine ⟨m, ?_, rfl, List.getElem?_concat_length⟩
  unfold apiListMap budget at hr
  rw [hh, hListMap, if_neg (by simp), List.getElem?_concat_length] at hr
  simp only [Sms.listMap, SmHolder.getData, hd, Bool.not_true, Bool.false_eq_true, if_false] at hr
  cases hm : slmFromString s.value d.sources d.contents d.mappings with
  | error z => rw [hm] at hr; cases hr
  | ok m' => rw [hm] at hr; cases hr; rfl

/-- A round, from a pair whose map is rendered as it is read. -/
theorem round_lines {w w1 w2 : World} {k k' : Nat} {v n : Str} {o : Option Str} {a : JAnswer} {e0 : Emitted} {r : SourceMap}
    {m' : Slm} (hk : w.maps[k]? = some e0) (hp : e0.LinePair v r)
    (hm : slmFromString v r.sources r.sourcesContent r.mappings = .ok m') (hr : slmToStringWithSourceMap m' none = ⟨v, r⟩)
    (e : (JOp.newSms v n (.emitted k) o none).run w = .ok (a, w1))
    (e1 : (JOp.sourceAndMap w.objs.length false true).run w1 = .ok (.pair k', w2)) :
    w2.maps[k']? = some (Emitted.new ⟨v, some r, none⟩ false) := by
  obtain ⟨s, hd, w3, kind, h1, h2, h3, h4, h5, h6⟩ := newSms_gives e
  have hmaps : ((w.internNew (some v)).2.intern (some n)).2.maps = w.maps := rfl
  simp only [World.give, hmaps, hk, hp.1, Bool.false_eq_true, if_false, hp.2] at h1
  cases h1
  obtain ⟨m, hm', -, hw⟩ := emit_lines h2 h3 h4 (d := r.data) (by rw [h5]; rfl) e1
  rw [h6] at hm'
  have := hm.symm.trans hm'
  cases this
  rw [hr] at hw
  exact hw

/-! ## The claim -/

theorem run_array {op : JOp} {w w' : World} {a : JAnswer} (e : op.run w = .ok (a, w')) :
    ∃ x, w'.strs.array = w.strs.array ++ x := (JOp.run_grown e).ext.array

theorem rounds_lines {w w' : World} {k k' : Nat} {code : Str} {r : SourceMap} {m' : Slm}
    (hk : w.maps[k]? = some (Emitted.new ⟨code, some r, none⟩ false))
    (hm : slmFromString code r.sources r.sourcesContent r.mappings = .ok m') (hr : slmToStringWithSourceMap m' none = ⟨code, r⟩)
    (h : LineRounds w k w' k') :
    (∃ e, w'.maps[k']? = some e ∧ e.LinePair code r) ∧ (∃ x, w'.strs.array = w.strs.array ++ x) ∧
      ∀ f v, Displays w.strs false code r f v → Reads w' k' f v := by
  induction h with
  | start => exact ⟨⟨_, hk, linePair_new _ _⟩, ⟨[], by simp⟩, fun f v => reads_of_displays hk⟩
  | more _ e hg hset ih =>
    obtain ⟨⟨x, h1, h2⟩, ⟨y, h3⟩, h4⟩ := ih
    refine ⟨World.Lasts.of_run e hg hset _ (LinePair.lasting code r) x h1 h2, ?_, fun f v h => reads_lasts e hg hset (h4 f v h)⟩
    obtain ⟨z, hz⟩ := (World.runFrom_ext e).array
    exact ⟨y ++ z, by rw [hz, h3, List.append_assoc]⟩
  | round _ hv e e1 ih =>
    obtain ⟨⟨x, h1, h2⟩, ⟨y, h3⟩, h4⟩ := ih
    cases reads_unique hv (h4 .source (.text code) rfl)
    have hw := round_lines h1 h2 hm hr e e1
    obtain ⟨z, hz⟩ := run_array e
    obtain ⟨z', hz'⟩ := run_array e1
    rw [hz, h3, List.append_assoc, List.append_assoc] at hz'
    exact ⟨⟨_, hw, linePair_new _ _⟩, ⟨_, hz'⟩, fun f v h => reads_of_displays hw (Displays.mono ⟨_, hz'⟩ h)⟩

theorem internAll_count (vs : List JVal) : ∀ (w : World), (w.internAll vs).1.length = vs.length := by
  induction vs with
  | nil => intro w; rfl
  | cons v vs ih => intro w; simp only [World.internAll, List.length_cons, ih]

/-- The first pair. -/
theorem first_lines {w0 w1 w : World} {code n : Str} {ss cs ns : List JVal} {mappings : Str} {o : Option Str}
    {a : JAnswer} {k : Nat} {ls : List (List Char)} {nums : List (List (List Int))} (hls : IsLines '\n' code ls)
    (hn : Spec.Numbered ls.length mappings nums)
    (hb : ∀ p, some p ∈ lineSums (0, 1) nums → low p.2 + ls.length ≤ 2 ^ 32) (h32 : ss.length < 2 ^ 32)
    (e0 : (JOp.newSms code n (.plain ss cs ns mappings) o none).run w0 = .ok (a, w1))
    (e1 : (JOp.sourceAndMap w0.objs.length false true).run w1 = .ok (.pair k, w)) :
    ∃ r m', w.maps[k]? = some (Emitted.new ⟨code, some r, none⟩ false) ∧
      slmFromString code r.sources r.sourcesContent r.mappings = .ok m' ∧ slmToStringWithSourceMap m' none = ⟨code, r⟩ := by
  obtain ⟨s, hd, w3, kind, h1, h2, h3, h4, h5, h6⟩ := newSms_gives e0
  simp only [World.give, World.giveData] at h1
  generalize hq : ((w0.internNew (some code)).2.intern (some n)).2 = q at h1
  have hpos : (-1 : Int) ∉ (q.internAll ss).1 := fun h => by
    have := World.internAll_pos _ h; omega
  have hlen : (q.internAll ss).1.length < 2 ^ 32 := by rw [internAll_count]; exact h32
  generalize (q.internAll ss).1 = S at h1 hpos hlen
  generalize ((q.internAll ss).2.internAllNew cs).1 = C at h1
  cases h1
  obtain ⟨m, hm, -, hw⟩ := emit_lines h2 h3 h4 (by rw [h5]) e1
  rw [h6] at hm
  obtain ⟨m1, g1, g2, m', g3, g4⟩ := C87_settles_partial code S C mappings none ls nums hls hn hb hpos hlen
  have := hm.symm.trans g1
  cases this
  rw [g2] at hw
  exact ⟨_, m', hw, g3, by rw [g4, ← g2]⟩

/-- C88: the line pair of a `SourceMapSource` made of an ordinary object, and any pair after rounds: what is read of the first
is read of the last. Missing: objects whose lines leave no room in 32 bits (`C87_not_line`). -/
theorem C88_partial (w0 w1 w w' : World) (code n : Str) (ss cs ns : List JVal) (mappings : Str) (o : Option Str)
    (a : JAnswer) (k k' : Nat) (ls : List (List Char)) (nums : List (List (List Int))) (hls : IsLines '\n' code ls)
    (hn : Spec.Numbered ls.length mappings nums)
    (hb : ∀ p, some p ∈ lineSums (0, 1) nums → low p.2 + ls.length ≤ 2 ^ 32) (h32 : ss.length < 2 ^ 32)
    (e0 : (JOp.newSms code n (.plain ss cs ns mappings) o none).run w0 = .ok (a, w1))
    (e1 : (JOp.sourceAndMap w0.objs.length false true).run w1 = .ok (.pair k, w))
    (h : LineRounds w k w' k') (f : JField) (v : JFieldVal) (hv : Reads w k f v) : Reads w' k' f v := by
  obtain ⟨r, m', hw, g3, g4⟩ := first_lines hls hn hb h32 e0 e1
  exact (rounds_lines hw g3 g4 h).2.2 f v (displays_of_reads hw hv)

/-- A round is never stopped by an exception. -/
theorem C88_round_runs (w0 w1 w w' : World) (code n : Str) (ss cs ns : List JVal) (mappings : Str) (o : Option Str)
    (a : JAnswer) (k k' : Nat) (ls : List (List Char)) (nums : List (List (List Int))) (hls : IsLines '\n' code ls)
    (hn : Spec.Numbered ls.length mappings nums)
    (hb : ∀ p, some p ∈ lineSums (0, 1) nums → low p.2 + ls.length ≤ 2 ^ 32) (h32 : ss.length < 2 ^ 32)
    (e0 : (JOp.newSms code n (.plain ss cs ns mappings) o none).run w0 = .ok (a, w1))
    (e1 : (JOp.sourceAndMap w0.objs.length false true).run w1 = .ok (.pair k, w))
    (h : LineRounds w k w' k') (n' : Str) (o' : Option Str) :
    Reads w' k' .source (.text code) ∧ ∃ b w2 k'' w3, (JOp.newSms code n' (.emitted k') o' none).run w' = .ok (b, w2) ∧
      (JOp.sourceAndMap w'.objs.length false true).run w2 = .ok (.pair k'', w3) := by
  obtain ⟨r, m', hw, g3, g4⟩ := first_lines hls hn hb h32 e0 e1
  obtain ⟨⟨x, x1, x2⟩, -, hr⟩ := rounds_lines hw g3 g4 h
  refine ⟨hr .source _ rfl, ?_⟩
  obtain ⟨b, w2, e2⟩ : ∃ b w2, (JOp.newSms code n' (.emitted k') o' none).run w' = .ok (b, w2) := by
    have hmaps : ((w'.internNew (some code)).2.intern (some n')).2.maps = w'.maps := rfl
    simp only [JOp.run, World.newSms, World.give, hmaps, x1, x2.1, x2.2, Bool.false_eq_true, if_false, Except.bind,
      World.giveInner, World.create, World.call, Op.run]
    exact ⟨_, _, rfl⟩
  obtain ⟨s', hd', w4, kind', i1, i2, i3, i4, i5, i6⟩ := newSms_gives e2
  have hmaps : ((w'.internNew (some code)).2.intern (some n')).2.maps = w'.maps := rfl
  simp only [World.give, hmaps, x1, x2.1, x2.2, Bool.false_eq_true, if_false] at i1
  cases i1
  refine ⟨b, w2, w2.maps.length, ?_⟩
  suffices h : ∃ w5, (JOp.sourceAndMap w'.objs.length false true).run w2 = .ok (.pair w2.maps.length, w5) from
    h.imp fun _ h => ⟨e2, h⟩
  obtain ⟨y, rfl⟩ := i4
  simp only [JOp.run, World.emit, i3, List.getElem?_concat_length]
  obtain ⟨h', this⟩ : ∃ h', apiListMap w2.heap w'.heap.length false true = .ok (m', h') := by
    unfold apiListMap budget
    rw [i2, hListMap, if_neg (by simp), List.getElem?_concat_length]
    simp only [Sms.listMap, SmHolder.getData, i5, i6, Option.map, SourceMap.data, Bool.not_true, Bool.false_eq_true, if_false, g3]
    exact ⟨_, rfl⟩
  simp only [World.call, Op.run, this, Except.map, Except.bind, Bool.false_eq_true, if_false]
  exact ⟨_, rfl⟩

/-- The pair of any object for lines. -/
theorem emit_line_pair {w0 w : World} {j k : Nat} {module_ : Bool}
    (e : (JOp.sourceAndMap j false module_).run w0 = .ok (.pair k, w)) :
    ∃ code r, w.maps[k]? = some (Emitted.new ⟨code, some r, none⟩ false) := by
  simp only [JOp.run, World.emit] at e
  split at e
  · cases e
  · split at e
    · cases e
    · simp only [Bool.false_eq_true, if_false, Except.bind_ok_iff] at e
      obtain ⟨⟨a, w2⟩, h1, h2⟩ := e
      obtain ⟨h, hr, rfl⟩ := World.call_ok h1
      dsimp only at h2
      split at h2
      · cases h2
        exact ⟨_, _, List.getElem?_concat_length⟩
      · cases h2

theorem values_list {t : StrTable JVal} : ∀ {ids : List Int} {l : List JVal}, t.values ids = some l →
    ∃ g : Int → JVal, l = ids.map g
  | ids, l, h => by
    refine ⟨fun i => (t.at i).join.join, ?_⟩
    simp only [StrTable.values, Option.map_eq_some_iff] at h
    obtain ⟨vs, h1, rfl⟩ := h
    induction ids generalizing vs with
    | nil => simp only [StrTable.resolve, Option.some.injEq] at h1; subst h1; rfl
    | cons i is ih =>
      simp only [StrTable.resolve] at h1
      split at h1
      · cases h1
      rename_i x hx
      simp only [Option.map_eq_some_iff] at h1
      obtain ⟨vs', h2, rfl⟩ := h1
      rw [List.map_cons, List.map_cons, ih vs' h2, hx]
      rfl

theorem values_distinct {t : StrTable JVal} {ids : List Int} {l : List JVal} (h : t.values ids = some l) (hl : l.Nodup) :
    ids.Nodup := by
  obtain ⟨g, rfl⟩ := values_list h
  exact List.Pairwise.imp (fun h e => h (by rw [e])) (List.pairwise_map.1 hl)

theorem values_count {t : StrTable JVal} {ids : List Int} {l : List JVal} (h : t.values ids = some l) :
    ids.length = l.length := by
  obtain ⟨g, rfl⟩ := values_list h
  rw [List.length_map]

/-- C88: also if the first map is itself the line pair of any object, with other statements before it is given, if the files
of the first pair of the `SourceMapSource` are distinct. -/
theorem C88_emitted_partial (w00 w01 w0 w1 w w' : World) (code n : Str) (l l' : List JVal) (mappings : Str) (o : Option Str)
    (j k0 : Nat) (module_ : Bool) (ops : List JOp)
    (a : JAnswer) (k k' : Nat) (ls : List (List Char)) (nums : List (List (List Int)))
    (e00 : (JOp.sourceAndMap j false module_).run w00 = .ok (.pair k0, w01))
    (hcode : Reads w01 k0 .source (.text code)) (hl : Reads w01 k0 .sources (.list l)) (hmp : Reads w01 k0 .mappings (.text mappings))
    (hls : IsLines '\n' code ls) (hn : Spec.Numbered ls.length mappings nums)
    (hb : ∀ p, some p ∈ lineSums (0, 1) nums → low p.2 + ls.length ≤ 2 ^ 32) (h32 : l.length < 2 ^ 32)
    (eo : w01.runFrom ops = .ok w0) (hg : ∀ op ∈ ops, ¬ op.gives k0) (hset : ∀ a, .set k0 a ∉ ops)
    (e0 : (JOp.newSms code n (.emitted k0) o none).run w0 = .ok (a, w1))
    (e1 : (JOp.sourceAndMap w0.objs.length false true).run w1 = .ok (.pair k, w))
    (hl' : Reads w k .sources (.list l')) (hd : l'.Nodup)
    (h : LineRounds w k w' k') (f : JField) (v : JFieldVal) (hv : Reads w k f v) : Reads w' k' f v := by
  obtain ⟨c, r, hk⟩ := emit_line_pair e00
  cases displays_of_reads hk hcode
  cases displays_of_reads hk hmp
  obtain ⟨l1, hl1, hl2⟩ := displays_of_reads hk hl
  cases hl2
  obtain ⟨x, x1, x2⟩ := World.Lasts.of_run eo hg hset _ (LinePair.lasting code r) _ hk (linePair_new _ _)
  obtain ⟨s, hh, w3, kind, h1, h2, h3, h4, h5, h6⟩ := newSms_gives e0
  have hmaps : ((w0.internNew (some code)).2.intern (some n)).2.maps = w0.maps := rfl
  simp only [World.give, hmaps, x1, x2.1, Bool.false_eq_true, if_false, x2.2] at h1
  cases h1
  obtain ⟨m, hm, -, hw⟩ := emit_lines h2 h3 h4 (d := r.data) (by rw [h5]; rfl) e1
  rw [h6] at hm
  obtain ⟨m1, g1, g2, g⟩ := C87_distinct_partial code r.sources r.sourcesContent r.mappings none ls nums hls hn hb
    (by rw [values_count hl1]; exact h32)
  have := hm.symm.trans g1
  cases this
  rw [g2] at hw
  obtain ⟨l2, hl3, hl4⟩ := displays_of_reads hw hl'
  cases hl4
  obtain ⟨m', g3, g4⟩ := g (values_distinct hl3 hd)
  exact (rounds_lines hw g3 (by rw [g4, ← g2]) h).2.2 f v (displays_of_reads hw hv)

/-! Non-trivial case: the object of C87, with two files of one name; two rounds, with reads and other sources between them. -/

/-- The program up to the first pair. -/
def c88First : List JOp :=
  [.newSms "a\n\nb\n \n\nc;\n".toList "n".toList
      (.plain [some "y".toList, some "x".toList, some "y".toList] [some "t".toList] [] ";A,ACCA,AADA;;ADAA;C,ACEA;;AOAC;".toList) none none,
    .sourceAndMap 0 false true]

/-- Two rounds. -/
def c88Rounds : List JOp :=
  [.get 0 .source, .get 0 .contents, .newRaw "r".toList,
    .newSms "a\n\nb\n \n\nc;\n".toList "m".toList (.emitted 0) (some "o".toList) none, .sourceAndMap 2 false true,
    .newSms "a\n\nb\n \n\nc;\n".toList "x".toList (.emitted 1) none none, .sourceAndMap 3 false true]

/-- What is read of a pair after a program. -/
def c88Reads (ops : List JOp) (k : Nat) : List (Option JAnswer) :=
  [JField.source, .sources, .contents, .mappings, .names].map fun f =>
    (World.run ops).toOption.bind fun w => ((JOp.get k f).run w).toOption.map Prod.fst

example : c88Reads c88First 0 = [some (.field (.text "a\n\nb\n \n\nc;\n".toList)),
      some (.field (.list [some "x".toList, some "y".toList])), some (.field (.list [some "t".toList])),
      some (.field (.text ";AACA;;ACDA;ADEA;;".toList)), some (.field .undefined)] ∧
    c88Reads (c88First ++ c88Rounds) 2 = c88Reads c88First 0 := by
  decide +kernel

/-- The hypotheses of the claim are met by this program, and a round follows it. -/
example : ∃ a w1 w k w' k',
    (JOp.newSms "a\n\nb\n \n\nc;\n".toList "n".toList
      (.plain [some "y".toList, some "x".toList, some "y".toList] [some "t".toList] [] ";A,ACCA,AADA;;ADAA;C,ACEA;;AOAC;".toList)
      none none).run World.empty = .ok (a, w1) ∧ (JOp.sourceAndMap 0 false true).run w1 = .ok (.pair k, w) ∧
    LineRounds w k w' k' ∧ ∀ f v, Reads w k f v → Reads w' k' f v := by
  have hp : ∀ p, some p ∈ lineSums (0, 1) c87Numbers → low p.2 + 7 ≤ 2 ^ 32 := by
    have : ∀ o ∈ lineSums (0, 1) c87Numbers, ∀ p, o = some p → low p.2 + 7 ≤ 2 ^ 32 := by decide +kernel
    exact fun o ho => this _ ho o rfl
  have hl := isLines_splitKeep '\n' "a\n\nb\n \n\nc;\n".toList
  let e : Option (World × JAnswer × World) :=
    match c88First with
    | [p, q] => (p.run World.empty).toOption.bind fun w => (q.run w.2).toOption.map fun w' => (w.2, w')
    | _ => none
  have he : e.map (fun w => w.2.1) = some (.pair 0) := by decide +kernel
  obtain ⟨⟨w1, b, w⟩, e', rfl⟩ := Option.map_eq_some_iff.1 he
  simp only [e, c88First, Option.bind_eq_some_iff, Option.map_eq_some_iff] at e'
  obtain ⟨⟨a, w1'⟩, h1, ⟨b, w2⟩, h2, h3⟩ := e'
  cases h3
  have ok : ∀ {x : Except JErr (JAnswer × World)} {y : JAnswer × World}, x.toOption = some y → x = .ok y := by
    intro x y h; cases x <;> simp_all [Except.toOption]
  have e0 := ok h1
  have e1 := ok h2
  dsimp only at e1
  obtain ⟨hv, c, w3, k', w4, r1, r2⟩ := C88_round_runs World.empty _ _ _ _ _ _ _ _ _ _ _ 0 0 _ c87Numbers hl c87_numbered hp
    (by decide) e0 e1 .start "m".toList none
  exact ⟨_, _, _, 0, w4, k', e0, e1, .round .start hv r1 r2, C88_partial World.empty _ _ w4 _ _ _ _ _ _ _ _ 0 k' _ c87Numbers
    hl c87_numbered hp (by decide) e0 e1 (.round .start hv r1 r2)⟩

/-! The pair of a ConcatSource, with two origins on one line: the first reading changes it, the second does not. -/

/-- Up to the pair of the ConcatSource. -/
def c88Concat : List JOp :=
  [.newOriginal "a\nb\n".toList "f".toList, .newOriginal "\nc".toList "g".toList,
    .newConcat [.obj 0, .str "x;\n".toList, .obj 1, .obj 0], .sourceAndMap 2 false true]

/-- The text and map of the pair number `k` made a source, object number `j`. -/
def c88Round (k j : Nat) : List JOp :=
  [.newSms "a\nb\nx;\n\nca\nb\n".toList "n".toList (.emitted k) none none, .sourceAndMap j false true]

example : (c88Reads c88Concat 0)[3]? = some (some (.field (.text "AAAA;AACA;;ACDA;AACA,CDDA;AACA;".toList))) ∧
    (c88Reads (c88Concat ++ c88Round 0 3) 1)[3]? = some (some (.field (.text "AAAA;AACA;;ACDA;AACA;ADAA;".toList))) ∧
    c88Reads (c88Concat ++ c88Round 0 3 ++ c88Round 1 4) 2 = c88Reads (c88Concat ++ c88Round 0 3) 1 := by
  decide +kernel

end WS
