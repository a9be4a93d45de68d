import Verif.Proofs.JsHash
/-! # Emitted maps: what the getters return, and when -/

namespace WS
open Spec

/-! ## The string table only grows -/

theorem Grows.rfl' (t : StrTable JVal) : ∃ r, t.array = t.array ++ r := ⟨[], by simp⟩

theorem World.call_strs {w w' : World} {op : Op} {a : Answer} (e : w.call op = .ok (a, w')) :
    w'.strs = w.strs ∧ w'.maps = w.maps := by
  obtain ⟨h, -, rfl⟩ := World.call_ok e
  exact ⟨rfl, rfl⟩

theorem World.create_strs {w w' : World} {op : Op} {k : JKind} (e : w.create op k = .ok w') :
    w'.strs = w.strs ∧ w'.maps = w.maps := by
  simp only [World.create, Except.map_ok_iff] at e
  obtain ⟨⟨a, w1⟩, h, rfl⟩ := e
  exact (World.call_strs h :)

theorem World.readSource_strs {w w' : World} {j : Nat} {s : Str}
    (e : w.readSource j = .ok (s, w')) : w'.strs = w.strs ∧ w'.maps = w.maps := by
  simp only [World.readSource] at e
  split at e
  · cases e
  · split at e
    · cases e; exact ⟨rfl, rfl⟩
    · simp only [Except.bind_ok_iff] at e
      obtain ⟨⟨a, w1⟩, h1, h2⟩ := e
      have := World.call_strs h1
      split at h2
      · cases h2; exact this
      · cases h2

theorem World.readSize_strs {w w' : World} {j n : Nat}
    (e : w.readSize j = .ok (n, w')) : w'.strs = w.strs ∧ w'.maps = w.maps := by
  simp only [World.readSize] at e
  split at e
  · cases e
  · split at e
    · cases e; exact ⟨rfl, rfl⟩
    · simp only [Except.bind_ok_iff] at e
      obtain ⟨⟨a, w1⟩, h1, h2⟩ := e
      have := World.call_strs h1
      split at h2
      · cases h2; exact this
      · cases h2

theorem World.emit_strs {w w' : World} {j : Nat} {c m : Bool} {a : JAnswer}
    (e : w.emit j c m = .ok (a, w')) : w'.strs = w.strs ∧ ∃ r, w'.maps = w.maps ++ r := by
  simp only [World.emit] at e
  split at e
  · cases e
  · split at e
    · cases e; exact ⟨rfl, [], by simp⟩
    · split at e
      · simp only [Except.bind_ok_iff] at e
        obtain ⟨⟨a, w1⟩, h1, h2⟩ := e
        have := World.call_strs h1
        split at h2
        · cases h2; exact ⟨this.1, _, rfl⟩
        · cases h2
      · simp only [Except.bind_ok_iff] at e
        obtain ⟨⟨a, w1⟩, h1, h2⟩ := e
        have := World.call_strs h1
        split at h2
        · cases h2; exact ⟨this.1, _, rfl⟩
        · cases h2

theorem World.addItem_strs {w w' : World} {j : Nat} {i : JSrc} (e : w.addItem j i = .ok w') :
    w'.strs = w.strs ∧ w'.maps = w.maps := by
  simp only [World.addItem] at e
  split at e
  · simp only [Except.bind_ok_iff, Except.map_ok_iff] at e
    obtain ⟨s, -, ⟨a, w1⟩, h1, rfl⟩ := e
    exact (World.call_strs h1 :)
  · cases e

theorem World.addItems_strs {items : List JSrc} {w w' : World} {j : Nat}
    (e : w.addItems j items = .ok w') : w'.strs = w.strs ∧ w'.maps = w.maps := by
  induction items generalizing w with
  | nil => cases e; exact ⟨rfl, rfl⟩
  | cons i items ih =>
    simp only [World.addItems, Except.bind_ok_iff] at e
    obtain ⟨w1, h1, h2⟩ := e
    have a := World.addItem_strs h1
    have b := ih h2
    exact ⟨b.1.trans a.1, b.2.trans a.2⟩

theorem World.hash_strs (n : Nat) :
    (∀ (w w' : World) j l, World.hashObj n w j = .ok (l, w') → w'.strs = w.strs ∧ w'.maps = w.maps) ∧
    (∀ (cs : List JSrc) (w w' : World) l, World.hashEach (World.hashObj n) w cs = .ok (l, w') →
      w'.strs = w.strs ∧ w'.maps = w.maps) := by
  have items : ∀ n : Nat,
      (∀ (w w' : World) j l, World.hashObj n w j = .ok (l, w') →
        w'.strs = w.strs ∧ w'.maps = w.maps) →
      ∀ (cs : List JSrc) (w w' : World) l, World.hashEach (World.hashObj n) w cs = .ok (l, w') →
        w'.strs = w.strs ∧ w'.maps = w.maps := by
    intro n ih cs
    induction cs with
    | nil => intro w w' l e; rw [World.hashEach] at e; cases e; exact ⟨rfl, rfl⟩
    | cons c cs ihc =>
      intro w w' l e
      cases c with
      | str s =>
        rw [World.hashEach] at e
        simp only [Except.map_ok_iff] at e
        obtain ⟨p, h1, h2⟩ := e
        cases h2
        exact ihc _ _ _ h1
      | obj j =>
        rw [World.hashEach] at e
        simp only [Except.bind_ok_iff, Except.map_ok_iff] at e
        obtain ⟨p, h1, q, h2, h3⟩ := e
        cases h3
        have a := ih _ _ _ _ h1
        have b := ihc _ _ _ h2
        exact ⟨b.1.trans a.1, b.2.trans a.2⟩
  induction n with
  | zero =>
    have : ∀ (w w' : World) j l, World.hashObj 0 w j = .ok (l, w') →
        w'.strs = w.strs ∧ w'.maps = w.maps := by
      intro w w' j l e; rw [World.hashObj] at e; cases e
    exact ⟨this, items 0 this⟩
  | succ n ih =>
    have : ∀ (w w' : World) j l, World.hashObj (n + 1) w j = .ok (l, w') →
        w'.strs = w.strs ∧ w'.maps = w.maps := by
      intro w w' j l e
      rw [World.hashObj] at e
      split at e
      · cases e
      · split at e
        · cases e; exact ⟨rfl, rfl⟩
        · cases e; exact ⟨rfl, rfl⟩
        · cases e; exact ⟨rfl, rfl⟩
        · cases e; exact ⟨rfl, rfl⟩
        · simp only [Except.map_ok_iff] at e
          obtain ⟨p, h1, h2⟩ := e
          cases h2
          exact ih.2 _ _ _ _ h1
        · simp only [Except.map_ok_iff] at e
          obtain ⟨p, h1, h2⟩ := e
          cases h2
          exact World.readSource_strs h1
        · exact ih.2 _ _ _ _ e
    exact ⟨this, items _ this⟩

theorem World.internAll_maps (w : World) (vs : List JVal) : (w.internAll vs).2.maps = w.maps := by
  induction vs generalizing w with
  | nil => rfl
  | cons v vs ih => exact ih _

theorem World.internAllNew_maps (w : World) (vs : List JVal) :
    (w.internAllNew vs).2.maps = w.maps := by
  induction vs generalizing w with
  | nil => rfl
  | cons v vs ih => exact ih _

theorem World.giveData_maps (w : World) (ss cs ns : List JVal) (m : Str) :
    (w.giveData ss cs ns m).2.maps = w.maps := by
  simp only [World.giveData, World.internAll_maps, World.internAllNew_maps]

/-! ## What can happen to an emitted map -/

/-- The statement hands map `k` to a `SourceMapSource`. -/
def _root_.WS.JOp.gives (k : Nat) : JOp → Prop
  | .newSms _ _ m _ i => m = .emitted k ∨ i = some (.emitted k)
  | _ => False

/-- A property of an emitted map that survives growth of the string table and reads of properties. -/
structure Lasting (P : StrTable JVal → Emitted → Prop) : Prop where
  mono : ∀ {t t' : StrTable JVal} {e : Emitted}, (∃ r, t'.array = t.array ++ r) → P t e → P t' e
  get : ∀ {w : World} {e e' : Emitted} {f : JField} {v : JFieldVal}, P w.strs e →
    e.get w f = .ok (v, e') → P w.strs e'

theorem Lasting.give {P : StrTable JVal → Emitted → Prop} (L : Lasting P) {w w' : World} {a : MapArg}
    {h : SmHolder} {k : Nat} {e : Emitted} (hk : w.maps[k]? = some e) (hp : P w.strs e)
    (hm : a = .emitted k → ∀ t e, P t e → P t { e with wasm := none })
    (r : w.give a = .ok (h, w')) : ∃ e', w'.maps[k]? = some e' ∧ P w'.strs e' := by
  have grow := (World.give_same r).strs
  cases a with
  | plain ss cs ns m =>
    simp only [World.give, Except.ok.injEq] at r
    have hmaps := w.giveData_maps ss cs ns m
    rw [r] at hmaps
    exact ⟨e, by rw [hmaps]; exact hk, L.mono grow hp⟩
  | emitted l =>
    simp only [World.give] at r
    split at r
    · cases r
    · rename_i e0 he0
      have hlt := (List.getElem?_eq_some_iff.1 he0).1
      split at r
      · cases r
        by_cases h : l = k
        · subst h
          rw [hk] at he0; cases he0
          exact ⟨_, List.getElem?_set_self hlt, hm rfl _ _ hp⟩
        · exact ⟨e, by rw [List.getElem?_set_ne h]; exact hk, hp⟩
      · simp only [Except.bind_ok_iff, Except.map_ok_iff] at r
        obtain ⟨a, ha, b, hb, c, hc, d, hd, r⟩ := r
        have hmaps := World.giveData_maps { w with maps := w.maps.set l d.2 } a.1 (b.1.getD []) d.1 c.1
        rw [r] at hmaps
        dsimp only at hmaps
        by_cases h : l = k
        · subst h
          rw [hk] at he0; cases he0
          refine ⟨d.2, by rw [hmaps]; exact List.getElem?_set_self hlt, L.mono grow ?_⟩
          have h1 : P w.strs a.2 := L.get (w := w) (f := .sources) (v := .list a.1) hp
            (by simp only [Emitted.get, ha, Except.map])
          have h2 : P w.strs b.2 := L.get (w := w) (f := .contents)
            (v := match b.1 with | some l => .list l | none => .undefined) h1
            (by simp only [Emitted.get, hb, Except.map]; rfl)
          have h3 : P w.strs c.2 := L.get (w := w) (f := .mappings) (v := .text c.1) h2
            (by simp [Emitted.get, hc, Except.map])
          exact L.get (w := w) (f := .names)
            (v := if c.2.hasNames then .list d.1 else .undefined) h3
            (by simp only [Emitted.get, hd, Except.map])
        · exact ⟨e, by rw [hmaps, List.getElem?_set_ne h]; exact hk, L.mono grow hp⟩

theorem Lasting.giveInner {P : StrTable JVal → Emitted → Prop} (L : Lasting P) {w w' : World}
    {a : Option MapArg} {h : Option SmHolder} {k : Nat} {e : Emitted} (hk : w.maps[k]? = some e)
    (hp : P w.strs e) (hm : a = some (.emitted k) → ∀ t e, P t e → P t { e with wasm := none })
    (r : w.giveInner a = .ok (h, w')) : ∃ e', w'.maps[k]? = some e' ∧ P w'.strs e' := by
  cases a with
  | none => cases r; exact ⟨e, hk, hp⟩
  | some a =>
    simp only [World.giveInner, Except.map_ok_iff] at r
    obtain ⟨p, h1, h2⟩ := r
    cases h2
    exact L.give hk hp (fun h => hm (by rw [h])) h1

theorem Lasting.run {P : StrTable JVal → Emitted → Prop} (L : Lasting P) {w w' : World} {op : JOp}
    {a : JAnswer} {k : Nat} {e : Emitted} (hk : w.maps[k]? = some e) (hp : P w.strs e)
    (hm : op.gives k → ∀ t e, P t e → P t { e with wasm := none })
    (hset : ∀ x, op = .set k x → ∀ t e, P t e → P t (e.set x))
    (r : op.run w = .ok (a, w')) : ∃ e', w'.maps[k]? = some e' ∧ P w'.strs e' := by
  have same : w'.strs = w.strs ∧ w'.maps = w.maps → ∃ e', w'.maps[k]? = some e' ∧ P w'.strs e' := by
    rintro ⟨h1, h2⟩
    exact ⟨e, by rw [h2]; exact hk, by rw [h1]; exact hp⟩
  have grown : (∃ r, w'.strs.array = w.strs.array ++ r) → w'.maps = w.maps →
      ∃ e', w'.maps[k]? = some e' ∧ P w'.strs e' := by
    intro h1 h2
    exact ⟨e, by rw [h2]; exact hk, L.mono h1 hp⟩
  cases op with
  | newRaw v =>
    simp only [JOp.run, Except.map_ok_iff] at r
    obtain ⟨_, h, h2⟩ := r; cases h2
    simp only [World.newRaw] at h
    split at h
    · cases h; exact same ⟨rfl, rfl⟩
    · simp only [Except.map_ok_iff] at h
      obtain ⟨w2, h3, rfl⟩ := h
      exact same (World.create_strs h3 :)
  | newOriginal v n =>
    simp only [JOp.run, Except.map_ok_iff] at r
    obtain ⟨_, h, h2⟩ := r; cases h2
    have hs := ((w.internNew_same (some v)).trans
      ((w.internNew (some v)).2.intern_same (some n))).strs
    have key : ∀ w2 : World, w2.strs = ((w.internNew (some v)).2.intern (some n)).2.strs ∧
        w2.maps = ((w.internNew (some v)).2.intern (some n)).2.maps →
        ∃ e', w2.maps[k]? = some e' ∧ P w2.strs e' := by
      rintro w2 ⟨h1, h2⟩
      exact ⟨e, by rw [h2]; exact hk, by rw [h1]; exact L.mono hs hp⟩
    simp only [World.newOriginal] at h
    split at h
    · split at h
      · cases h; exact key _ ⟨rfl, rfl⟩
      · simp only [Except.map_ok_iff] at h
        obtain ⟨w2, h3, rfl⟩ := h
        exact key w2 (World.create_strs h3)
    · exact key _ (World.create_strs h)
  | newL2l v n o =>
    simp only [JOp.run, Except.map_ok_iff] at r
    obtain ⟨_, h, h2⟩ := r; cases h2
    have hs := ((w.intern_same (some n)).trans ((w.intern (some n)).2.internNew_same (some o))).strs
    obtain ⟨h1, h2⟩ := World.create_strs h
    exact grown (by rw [h1]; exact hs) (by rw [h2]; rfl)
  | newSms v n m o i =>
    simp only [JOp.run, Except.map_ok_iff] at r
    obtain ⟨_, h, h2⟩ := r; cases h2
    simp only [World.newSms, Except.bind_ok_iff] at h
    obtain ⟨m', h1, i', h2, h3⟩ := h
    have hs := ((w.internNew_same (some v)).trans
      ((w.internNew (some v)).2.intern_same (some n))).strs
    obtain ⟨e1, k1, p1⟩ := L.give (w := ((w.internNew (some v)).2.intern (some n)).2) (k := k) (e := e) hk (L.mono hs hp)
      (fun h => hm (.inl h)) h1
    have step : ∃ e2, i'.2.maps[k]? = some e2 ∧ P i'.2.strs e2 := by
      cases ht : truthy o with
      | none =>
        rw [ht] at h2
        exact L.giveInner k1 p1 (fun h => hm (.inr h)) h2
      | some s =>
        rw [ht] at h2
        exact L.giveInner (w := (m'.2.internNew (some s)).2) k1
          (L.mono (m'.2.internNew_same (some s)).strs p1) (fun h => hm (.inr h)) h2
    obtain ⟨e2, k2, p2⟩ := step
    obtain ⟨h4, h5⟩ := World.create_strs h3
    exact ⟨e2, by rw [h5]; exact k2, by rw [h4]; exact p2⟩
  | newPrefix p c =>
    simp only [JOp.run, Except.map_ok_iff, Except.bind_ok_iff] at r
    obtain ⟨s, hs, _, h, h2⟩ := r; cases h2
    exact same (World.create_strs h)
  | newReplace c =>
    simp only [JOp.run, Except.map_ok_iff, Except.bind_ok_iff] at r
    obtain ⟨s, hs, _, h, h2⟩ := r; cases h2
    exact same (World.create_strs h)
  | newConcat items =>
    simp only [JOp.run, Except.map_ok_iff, Except.bind_ok_iff] at r
    obtain ⟨w1, h1, w2, h2, h3⟩ := r; cases h3
    have a := World.create_strs h1
    have b := World.addItems_strs h2
    exact same ⟨b.1.trans a.1, b.2.trans a.2⟩
  | add j item =>
    simp only [JOp.run, Except.map_ok_iff] at r
    obtain ⟨_, h, h2⟩ := r; cases h2
    exact same (World.addItem_strs h)
  | replace j a b t =>
    simp only [JOp.run] at r
    split at r
    · simp only [Except.map_ok_iff] at r
      obtain ⟨p, h1, h2⟩ := r; cases h2
      exact same (World.call_strs h1)
    · cases r
  | insert j a t =>
    simp only [JOp.run] at r
    split at r
    · simp only [Except.map_ok_iff] at r
      obtain ⟨p, h1, h2⟩ := r; cases h2
      exact same (World.call_strs h1)
    · cases r
  | source j =>
    simp only [JOp.run, Except.map_ok_iff] at r
    obtain ⟨_, h, h2⟩ := r; cases h2; exact same (World.readSource_strs h)
  | size j =>
    simp only [JOp.run, Except.map_ok_iff] at r
    obtain ⟨_, h, h2⟩ := r; cases h2; exact same (World.readSize_strs h)
  | sourceAndMap j c m =>
    obtain ⟨h1, s, h2⟩ := World.emit_strs r
    exact ⟨e, by rw [h2]; exact getElem?_append_some hk, by rw [h1]; exact hp⟩
  | hash j =>
    simp only [JOp.run, Except.map_ok_iff] at r
    obtain ⟨_, h, h2⟩ := r; cases h2
    exact same ((World.hash_strs _).1 _ _ _ _ h)
  | get l f =>
    simp only [JOp.run] at r
    split at r
    · cases r
    · rename_i e0 he0
      simp only [Except.map_ok_iff] at r
      obtain ⟨p, h1, h2⟩ := r; cases h2
      by_cases h : l = k
      · subst h
        rw [hk] at he0; cases he0
        exact ⟨_, List.getElem?_set_self (List.getElem?_eq_some_iff.1 hk).1, L.get hp h1⟩
      · exact ⟨e, by rw [List.getElem?_set_ne h]; exact hk, hp⟩
  | set l x =>
    simp only [JOp.run] at r
    split at r
    · cases r
    · rename_i e0 he0
      cases r
      by_cases h : l = k
      · subst h
        rw [hk] at he0; cases he0
        exact ⟨_, List.getElem?_set_self (List.getElem?_eq_some_iff.1 hk).1, hset x rfl _ _ hp⟩
      · exact ⟨e, by rw [List.getElem?_set_ne h]; exact hk, hp⟩

theorem Lasting.runFrom {P : StrTable JVal → Emitted → Prop} (L : Lasting P) {ops : List JOp}
    {w w' : World} {k : Nat} {e : Emitted} (hk : w.maps[k]? = some e) (hp : P w.strs e)
    (hm : (∃ op ∈ ops, op.gives k) → ∀ t e, P t e → P t { e with wasm := none })
    (hset : ∀ x, .set k x ∈ ops → ∀ t e, P t e → P t (e.set x))
    (r : w.runFrom ops = .ok w') : ∃ e', w'.maps[k]? = some e' ∧ P w'.strs e' := by
  induction ops generalizing w e with
  | nil => cases r; exact ⟨e, hk, hp⟩
  | cons op ops ih =>
    simp only [World.runFrom, Except.bind_ok_iff] at r
    obtain ⟨⟨a, w1⟩, h1, h2⟩ := r
    obtain ⟨e1, k1, p1⟩ := L.run hk hp (fun h => hm ⟨op, by simp, h⟩)
      (fun x hx => hset x (by simp [hx])) h1
    exact ih k1 p1 (fun ⟨o, ho, h⟩ => hm ⟨o, by simp [ho], h⟩) (fun x hx => hset x (by simp [hx])) h2

/-! ## Two lasting properties -/

/-- The property is answered from the variable that keeps it. -/
def Emitted.Keeps (e : Emitted) : JField → JFieldVal → Prop
  | .source, v => ∃ s, e.source = some s ∧ v = .text s
  | .sources, v => ∃ l, e.sources = some l ∧ v = .list l
  | .contents, v => (∃ x l, e.contents = some (some (x :: l)) ∧ v = .list (x :: l)) ∨
      ((e.contents = some none ∨ e.contents = some (some [])) ∧ v = .undefined)
  | .mappings, v => ∃ s, e.mappings = some s ∧ v = .text s
  | .names, v => (e.hasNames = true ∧ ∃ l, e.names = some l ∧ v = .list l) ∨
      (e.hasNames = false ∧ v = .undefined)

theorem Emitted.Keeps.get {e : Emitted} {f : JField} {v : JFieldVal} (h : e.Keeps f v) (w : World) :
    e.get w f = .ok (v, e) := by
  cases f with
  | source =>
    obtain ⟨s, h1, rfl⟩ := h
    simp [Emitted.get, Emitted.getSource, h1, Except.map]
  | sources =>
    obtain ⟨s, h1, rfl⟩ := h
    simp [Emitted.get, Emitted.getSources, h1, Except.map]
  | contents =>
    rcases h with ⟨x, l, h1, rfl⟩ | ⟨h1 | h1, rfl⟩ <;>
    simp [Emitted.get, Emitted.getContents, h1, Except.map]
  | mappings =>
    obtain ⟨s, h1, rfl⟩ := h
    simp [Emitted.get, Emitted.getMappings, h1, Except.map]
  | names =>
    rcases h with ⟨h0, s, h1, rfl⟩ | ⟨h0, rfl⟩ <;>
    simp [Emitted.get, Emitted.getNames, *, Except.map]

theorem Emitted.data_fields {e e' : Emitted} {m : SourceMap} (h : e.data = .ok (m, e')) :
    ∃ wm wm', e.wasm = some wm ∧ wm.getMap = .ok (m, wm') ∧ e' = { e with wasm := some wm' } := by
  simp only [Emitted.data] at h
  split at h
  · cases h
  · rename_i wm hw
    split at h
    · cases h
    · rename_i hg; cases h; exact ⟨wm, _, hw, hg, rfl⟩

/-- After a read the property is kept, and what was kept before stays. -/
theorem Emitted.get_keeps {w : World} {e e' : Emitted} {f : JField} {v : JFieldVal}
    (h : e.get w f = .ok (v, e')) : e'.Keeps f v := by
  cases f with
  | source =>
    simp only [Emitted.get, Except.map_ok_iff] at h
    obtain ⟨p, h1, h2⟩ := h
    cases h2
    simp only [Emitted.getSource] at h1
    split at h1
    · rename_i s hs; cases h1; exact ⟨s, hs, rfl⟩
    · split at h1
      · cases h1
      · cases h1; exact ⟨_, rfl, rfl⟩
  | sources =>
    simp only [Emitted.get, Except.map_ok_iff] at h
    obtain ⟨p, h1, h2⟩ := h
    cases h2
    simp only [Emitted.getSources] at h1
    split at h1
    · rename_i s hs; cases h1; exact ⟨s, hs, rfl⟩
    · simp only [Except.bind_ok_iff, Except.map_ok_iff] at h1
      obtain ⟨q, -, l, -, h3⟩ := h1
      cases h3
      exact ⟨l, rfl, rfl⟩
  | contents =>
    simp only [Emitted.get, Except.map_ok_iff] at h
    obtain ⟨p, h1, h2⟩ := h
    cases h2
    simp only [Emitted.getContents] at h1
    split at h1
    · rename_i c hc
      cases h1
      match c with
      | none => exact .inr ⟨.inl hc, rfl⟩
      | some [] => exact .inr ⟨.inr hc, rfl⟩
      | some (x :: l) => exact .inl ⟨x, l, hc, rfl⟩
    · simp only [Except.bind_ok_iff, Except.map_ok_iff] at h1
      obtain ⟨q, -, l, -, h3⟩ := h1
      cases h3
      match l with
      | [] => exact .inr ⟨.inl rfl, rfl⟩
      | x :: l => exact .inl ⟨x, l, rfl, rfl⟩
  | mappings =>
    simp only [Emitted.get, Except.map_ok_iff] at h
    obtain ⟨p, h1, h2⟩ := h
    cases h2
    simp only [Emitted.getMappings] at h1
    split at h1
    · rename_i s hs; cases h1; exact ⟨s, hs, rfl⟩
    · simp only [Except.map_ok_iff] at h1
      obtain ⟨q, -, h3⟩ := h1
      cases h3
      exact ⟨_, rfl, rfl⟩
  | names =>
    simp only [Emitted.get, Except.map_ok_iff] at h
    obtain ⟨p, h1, h2⟩ := h
    cases h2
    simp only [Emitted.getNames] at h1
    split at h1
    · rename_i hn
      split at h1
      · rename_i s hs; cases h1; exact .inl ⟨hn, s, hs, by simp [hn]⟩
      · simp only [Except.bind_ok_iff, Except.map_ok_iff] at h1
        obtain ⟨q, hq, l, -, h3⟩ := h1
        obtain ⟨wm, wm', -, -, hq'⟩ := Emitted.data_fields hq
        cases h3
        refine .inl ⟨?_, l, rfl, by simp [hn]⟩
        rw [hq']; exact hn
    · rename_i hn; cases h1; exact .inr ⟨by simpa using hn, by simp [hn]⟩

/-- What a read changes: the wasm object computes its map, and the property that was read is kept. -/
theorem Emitted.get_changes {w : World} {e e' : Emitted} {f : JField} {v : JFieldVal}
    (h : e.get w f = .ok (v, e')) :
    (e'.wasm = e.wasm ∨ ∃ wm m wm', e.wasm = some wm ∧ wm.getMap = .ok (m, wm') ∧ e'.wasm = some wm') ∧
    e'.hasNames = e.hasNames ∧ e'.modified = e.modified ∧
    (f = .source ∨ e'.source = e.source) ∧ (f = .sources ∨ e'.sources = e.sources) ∧
    (f = .contents ∨ e'.contents = e.contents) ∧ (f = .mappings ∨ e'.mappings = e.mappings) ∧
    (f = .names ∨ e'.names = e.names) := by
  cases f with
  | source =>
    simp only [Emitted.get, Except.map_ok_iff] at h
    obtain ⟨p, h1, h2⟩ := h
    cases h2
    simp only [Emitted.getSource] at h1
    split at h1
    · cases h1; simp
    · split at h1
      · cases h1
      · cases h1; simp
  | sources =>
    simp only [Emitted.get, Except.map_ok_iff] at h
    obtain ⟨p, h1, h2⟩ := h
    cases h2
    simp only [Emitted.getSources] at h1
    split at h1
    · cases h1; simp
    · simp only [Except.bind_ok_iff, Except.map_ok_iff] at h1
      obtain ⟨q, hq, l, -, h3⟩ := h1
      obtain ⟨wm, wm', a, b, hq'⟩ := Emitted.data_fields hq
      cases h3
      rw [hq']; simp [a, b]
  | contents =>
    simp only [Emitted.get, Except.map_ok_iff] at h
    obtain ⟨p, h1, h2⟩ := h
    cases h2
    simp only [Emitted.getContents] at h1
    split at h1
    · cases h1; simp
    · simp only [Except.bind_ok_iff, Except.map_ok_iff] at h1
      obtain ⟨q, hq, l, -, h3⟩ := h1
      obtain ⟨wm, wm', a, b, hq'⟩ := Emitted.data_fields hq
      cases h3
      rw [hq']; simp [a, b]
  | mappings =>
    simp only [Emitted.get, Except.map_ok_iff] at h
    obtain ⟨p, h1, h2⟩ := h
    cases h2
    simp only [Emitted.getMappings] at h1
    split at h1
    · cases h1; simp
    · simp only [Except.map_ok_iff] at h1
      obtain ⟨q, hq, h3⟩ := h1
      obtain ⟨wm, wm', a, b, hq'⟩ := Emitted.data_fields hq
      cases h3
      rw [hq']; simp [a, b]
  | names =>
    simp only [Emitted.get, Except.map_ok_iff] at h
    obtain ⟨p, h1, h2⟩ := h
    cases h2
    simp only [Emitted.getNames] at h1
    split at h1
    · split at h1
      · cases h1; simp
      · simp only [Except.bind_ok_iff, Except.map_ok_iff] at h1
        obtain ⟨q, hq, l, -, h3⟩ := h1
        obtain ⟨wm, wm', a, b, hq'⟩ := Emitted.data_fields hq
        cases h3
        rw [hq']; simp [a, b]
    · cases h1; simp

theorem Emitted.Keeps.other {w : World} {e e' : Emitted} {f g : JField} {v u : JFieldVal}
    (h : e.Keeps f v) (hg : e.get w g = .ok (u, e')) : e'.Keeps f v := by
  by_cases hfg : g = f
  · subst hfg
    rw [h.get w] at hg; cases hg; exact h
  · obtain ⟨-, hn, -, h1, h2, h3, h4, h5⟩ := Emitted.get_changes hg
    cases f <;> simp only [Emitted.Keeps] at h ⊢
    · rw [h1.resolve_left hfg]; exact h
    · rw [h2.resolve_left hfg]; exact h
    · rw [h3.resolve_left hfg]; exact h
    · rw [h4.resolve_left hfg]; exact h
    · rw [hn, h5.resolve_left hfg]; exact h

theorem Keeps.lasting (f : JField) (v : JFieldVal) : Lasting (fun _ e => e.Keeps f v) :=
  ⟨fun _ h => h, fun h hg => h.other hg⟩

theorem Keeps.move {f : JField} {v : JFieldVal} {e : Emitted} (h : e.Keeps f v) :
    Emitted.Keeps { e with wasm := none } f v := by
  cases f <;> exact h

/-- The property an assignment changes. -/
def _root_.WS.JAssign.field : JAssign → JField
  | .source _ => .source
  | .sources _ => .sources
  | .contents _ => .contents
  | .mappings _ => .mappings
  | .names _ => .names

theorem Keeps.set {f : JField} {v : JFieldVal} {e : Emitted} (h : e.Keeps f v) {a : JAssign}
    (ha : a.field ≠ f) : (e.set a).Keeps f v := by
  cases a <;> cases f <;> first | exact absurd rfl ha | (simp only [Emitted.set]; first | exact h | (split <;> exact h))

/-! ## When a property is read does not matter -/

theorem StrTable.resolve_mono {t t' : StrTable JVal} (g : ∃ r, t'.array = t.array ++ r)
    {ids : List Int} {vs : List (Option JVal)} (h : t.resolve ids = some vs) :
    t'.resolve ids = some vs := by
  obtain ⟨r, hr⟩ := g
  induction ids generalizing vs with
  | nil => exact h
  | cons i ids ih =>
    simp only [StrTable.resolve] at h ⊢
    have hat : ∀ x, t.at i = some x → t'.at i = some x := by
      intro x hx
      simp only [StrTable.at] at hx ⊢
      split
      · rename_i hi; rw [if_pos hi] at hx; exact hx
      · rename_i hi
        rw [if_neg hi] at hx
        cases hk : t.array[i.toNat]? with
        | none => rw [hk] at hx; cases hx
        | some s => rw [hk] at hx; rw [hr, getElem?_append_some hk]; exact hx
    cases hx : t.at i with
    | none => rw [hx] at h; cases h
    | some x =>
      rw [hx] at h
      rw [hat x hx]
      dsimp only at h ⊢
      cases hy : t.resolve ids with
      | none => rw [hy] at h; cases h
      | some y => rw [hy] at h; rw [ih hy]; exact h

theorem World.resolve_mono {w w' : World} (g : ∃ r, w'.strs.array = w.strs.array ++ r)
    {ids : List Int} {vs : List JVal} (h : w.resolve ids = .ok vs) : w'.resolve ids = .ok vs := by
  simp only [World.resolve] at h ⊢
  cases hx : w.strs.resolve ids with
  | none => rw [hx] at h; cases h
  | some x => rw [hx] at h; rw [StrTable.resolve_mono g hx]; exact h

/-- The map of the wasm object, whether computed already or not. -/
def Emitted.Yields (e : Emitted) (m : SourceMap) : Prop :=
  ∃ wm wm', e.wasm = some wm ∧ wm.getMap = .ok (m, wm')

theorem Emitted.Yields.of_data {e e' : Emitted} {m : SourceMap} (h : e.data = .ok (m, e')) :
    e.Yields m := by
  obtain ⟨wm, wm', a, b, -⟩ := Emitted.data_fields h
  exact ⟨wm, wm', a, b⟩

theorem Emitted.Yields.data {e : Emitted} {m : SourceMap} (h : e.Yields m) :
    ∃ e', e.data = .ok (m, e') := by
  obtain ⟨wm, wm', a, b⟩ := h
  exact ⟨{ e with wasm := some wm' }, by simp [Emitted.data, a, b]⟩

theorem WasmMap.getMap_again {w w' : WasmMap} {m : SourceMap} (h : w.getMap = .ok (m, w')) :
    w'.getMap = .ok (m, w') ∧ w'.s = w.s := by
  simp only [WasmMap.getMap] at h
  split at h
  · rename_i m' hm; cases h; exact ⟨by simp [WasmMap.getMap, hm], rfl⟩
  · split at h
    · cases h
    · split at h
      · cases h
      · cases h; exact ⟨rfl, rfl⟩

theorem Emitted.Yields.get {w : World} {e e' : Emitted} {g : JField} {u : JFieldVal} {m : SourceMap}
    (h : e.Yields m) (hg : e.get w g = .ok (u, e')) : e'.Yields m := by
  obtain ⟨wm, wm', a, b⟩ := h
  rcases (Emitted.get_changes hg).1 with h2 | ⟨wm2, m2, wm3, h2, h3, h4⟩
  · exact ⟨wm, wm', by rw [h2]; exact a, b⟩
  · rw [a] at h2; cases h2
    rw [b] at h3; cases h3
    exact ⟨wm', wm', h4, (WasmMap.getMap_again b).1⟩

/-- What a read that is not answered from the variable computes. -/
def Emitted.Fresh (t : StrTable JVal) (e : Emitted) (f : JField) (v : JFieldVal) : Prop :=
  match f with
  | .source => e.source = none ∧ ∃ wm, e.wasm = some wm ∧ v = .text wm.s
  | .sources => e.sources = none ∧ ∃ m l, e.Yields m ∧ t.resolve m.sources = some l ∧
      v = .list (l.map Option.join)
  | .contents => e.contents = none ∧ ∃ m l, e.Yields m ∧ t.resolve m.sourcesContent = some l ∧
      v = if l = [] then .undefined else .list (l.map Option.join)
  | .mappings => e.mappings = none ∧ ∃ m, e.Yields m ∧ v = .text m.mappings
  | .names => e.hasNames = true ∧ e.names = none ∧ ∃ m l, e.Yields m ∧ t.resolve m.names = some l ∧
      v = .list (l.map Option.join)

theorem resolve_ok {w : World} {ids : List Int} {l : List JVal} (h : w.resolve ids = .ok l) :
    ∃ vs, w.strs.resolve ids = some vs ∧ vs.map Option.join = l := by
  simp only [World.resolve] at h
  cases hx : w.strs.resolve ids with
  | none => rw [hx] at h; cases h
  | some x => rw [hx] at h; cases h; exact ⟨x, rfl, rfl⟩

/-- Every successful read is of one of the two kinds. -/
theorem Emitted.get_cases {w : World} {e e' : Emitted} {f : JField} {v : JFieldVal}
    (h : e.get w f = .ok (v, e')) : e.Keeps f v ∨ e.Fresh w.strs f v := by
  cases f with
  | source =>
    simp only [Emitted.get, Except.map_ok_iff] at h
    obtain ⟨p, h1, h2⟩ := h
    cases h2
    simp only [Emitted.getSource] at h1
    split at h1
    · rename_i s hs; cases h1; exact .inl ⟨s, hs, rfl⟩
    · rename_i hs
      split at h1
      · cases h1
      · rename_i wm hw; cases h1; exact .inr ⟨hs, wm, hw, rfl⟩
  | sources =>
    simp only [Emitted.get, Except.map_ok_iff] at h
    obtain ⟨p, h1, h2⟩ := h
    cases h2
    simp only [Emitted.getSources] at h1
    split at h1
    · rename_i s hs; cases h1; exact .inl ⟨s, hs, rfl⟩
    · rename_i hs
      simp only [Except.bind_ok_iff, Except.map_ok_iff] at h1
      obtain ⟨⟨m, e1⟩, hq, l, hl, h3⟩ := h1
      obtain ⟨vs, h4, rfl⟩ := resolve_ok hl
      cases h3
      exact .inr ⟨hs, m, vs, Emitted.Yields.of_data hq, h4, rfl⟩
  | contents =>
    simp only [Emitted.get, Except.map_ok_iff] at h
    obtain ⟨p, h1, h2⟩ := h
    cases h2
    simp only [Emitted.getContents] at h1
    split at h1
    · rename_i c hc
      cases h1
      match c with
      | none => exact .inl (.inr ⟨.inl hc, rfl⟩)
      | some [] => exact .inl (.inr ⟨.inr hc, rfl⟩)
      | some (x :: l) => exact .inl (.inl ⟨x, l, hc, rfl⟩)
    · rename_i hs
      simp only [Except.bind_ok_iff, Except.map_ok_iff] at h1
      obtain ⟨⟨m, e1⟩, hq, l, hl, h3⟩ := h1
      obtain ⟨vs, h4, rfl⟩ := resolve_ok hl
      cases h3
      refine .inr ⟨hs, m, vs, Emitted.Yields.of_data hq, h4, ?_⟩
      cases vs with
      | nil => rfl
      | cons x l => rfl
  | mappings =>
    simp only [Emitted.get, Except.map_ok_iff] at h
    obtain ⟨p, h1, h2⟩ := h
    cases h2
    simp only [Emitted.getMappings] at h1
    split at h1
    · rename_i s hs; cases h1; exact .inl ⟨s, hs, rfl⟩
    · rename_i hs
      simp only [Except.map_ok_iff] at h1
      obtain ⟨⟨m, e1⟩, hq, h3⟩ := h1
      cases h3
      exact .inr ⟨hs, m, Emitted.Yields.of_data hq, rfl⟩
  | names =>
    simp only [Emitted.get, Except.map_ok_iff] at h
    obtain ⟨p, h1, h2⟩ := h
    cases h2
    simp only [Emitted.getNames] at h1
    split at h1
    · rename_i hn
      split at h1
      · rename_i s hs; cases h1; exact .inl (.inl ⟨hn, s, hs, by simp [hn]⟩)
      · rename_i hs
        simp only [Except.bind_ok_iff, Except.map_ok_iff] at h1
        obtain ⟨⟨m, e1⟩, hq, l, hl, h3⟩ := h1
        obtain ⟨vs, h4, rfl⟩ := resolve_ok hl
        cases h3
        exact .inr ⟨hn, hs, m, vs, Emitted.Yields.of_data hq, h4, by simp [hn]⟩
    · rename_i hn; cases h1; exact .inl (.inr ⟨by simpa using hn, by simp [hn]⟩)

theorem ok_of_resolve {w : World} {ids : List Int} {vs : List (Option JVal)}
    (h : w.strs.resolve ids = some vs) : w.resolve ids = .ok (vs.map Option.join) := by
  simp [World.resolve, h]

theorem Emitted.Fresh.get {w : World} {e : Emitted} {f : JField} {v : JFieldVal}
    (h : e.Fresh w.strs f v) : ∃ e', e.get w f = .ok (v, e') := by
  cases f with
  | source =>
    obtain ⟨h1, wm, h2, rfl⟩ := h
    exact ⟨{ e with source := some wm.s }, by simp [Emitted.get, Emitted.getSource, h1, h2, Except.map]⟩
  | sources =>
    obtain ⟨h1, m, l, hy, h3, rfl⟩ := h
    obtain ⟨e1, h2⟩ := hy.data
    exact ⟨{ e1 with sources := some (l.map Option.join) },
      by simp [Emitted.get, Emitted.getSources, h1, h2, Except.bind, ok_of_resolve h3, Except.map]⟩
  | contents =>
    obtain ⟨h1, m, l, hy, h3, rfl⟩ := h
    obtain ⟨e1, h2⟩ := hy.data
    cases l with
    | nil =>
      exact ⟨{ e1 with contents := some none },
        by simp [Emitted.get, Emitted.getContents, h1, h2, Except.bind, ok_of_resolve h3, Except.map]⟩
    | cons x l =>
      exact ⟨{ e1 with contents := some (some ((x :: l).map Option.join)) },
        by simp [Emitted.get, Emitted.getContents, h1, h2, Except.bind, ok_of_resolve h3, Except.map]⟩
  | mappings =>
    obtain ⟨h1, m, hy, rfl⟩ := h
    obtain ⟨e1, h2⟩ := hy.data
    exact ⟨{ e1 with mappings := some m.mappings },
      by simp [Emitted.get, Emitted.getMappings, h1, h2, Except.map]⟩
  | names =>
    obtain ⟨h0, h1, m, l, hy, h3, rfl⟩ := h
    obtain ⟨e1, h2⟩ := hy.data
    exact ⟨{ e1 with names := some (l.map Option.join) },
      by simp [Emitted.get, Emitted.getNames, h0, h1, h2, Except.bind, ok_of_resolve h3, Except.map]⟩

theorem Emitted.Fresh.mono {t t' : StrTable JVal} {e : Emitted} {f : JField} {v : JFieldVal}
    (g : ∃ r, t'.array = t.array ++ r) (h : e.Fresh t f v) : e.Fresh t' f v := by
  cases f with
  | source => exact h
  | sources => obtain ⟨h1, m, l, h2, h3, h4⟩ := h; exact ⟨h1, m, l, h2, StrTable.resolve_mono g h3, h4⟩
  | contents => obtain ⟨h1, m, l, h2, h3, h4⟩ := h; exact ⟨h1, m, l, h2, StrTable.resolve_mono g h3, h4⟩
  | mappings => exact h
  | names => obtain ⟨h0, h1, m, l, h2, h3, h4⟩ := h; exact ⟨h0, h1, m, l, h2, StrTable.resolve_mono g h3, h4⟩

/-- Reading another property leaves an uncomputed one as it is. -/
theorem Emitted.Fresh.other {w : World} {e e' : Emitted} {f g : JField} {v u : JFieldVal}
    (h : e.Fresh w.strs f v) (hg : e.get w g = .ok (u, e')) (hfg : g ≠ f) : e'.Fresh w.strs f v := by
  obtain ⟨hw, hn, -, h1, h2, h3, h4, h5⟩ := Emitted.get_changes hg
  cases f with
  | source =>
    obtain ⟨k1, wm, k2, k3⟩ := h
    refine ⟨by rw [h1.resolve_left hfg]; exact k1, ?_⟩
    rcases hw with hw | ⟨wm2, m2, wm3, q2, q3, q4⟩
    · exact ⟨wm, by rw [hw]; exact k2, k3⟩
    · rw [k2] at q2; cases q2
      exact ⟨wm3, q4, by rw [(WasmMap.getMap_again q3).2]; exact k3⟩
  | sources =>
    obtain ⟨k1, m, l, k2, k3, k4⟩ := h
    exact ⟨by rw [h2.resolve_left hfg]; exact k1, m, l, k2.get hg, k3, k4⟩
  | contents =>
    obtain ⟨k1, m, l, k2, k3, k4⟩ := h
    exact ⟨by rw [h3.resolve_left hfg]; exact k1, m, l, k2.get hg, k3, k4⟩
  | mappings =>
    obtain ⟨k1, m, k2, k4⟩ := h
    exact ⟨by rw [h4.resolve_left hfg]; exact k1, m, k2.get hg, k4⟩
  | names =>
    obtain ⟨k0, k1, m, l, k2, k3, k4⟩ := h
    exact ⟨by rw [hn]; exact k0, by rw [h5.resolve_left hfg]; exact k1, m, l, k2.get hg, k3, k4⟩

theorem Reads.lasting (f : JField) (v : JFieldVal) :
    Lasting (fun t e => e.Keeps f v ∨ e.Fresh t f v) := by
  refine ⟨fun g h => h.imp_right (·.mono g), ?_⟩
  intro w e e' g u h hg
  rcases h with h | h
  · exact .inl (h.other hg)
  · by_cases hfg : g = f
    · subst hfg
      obtain ⟨e2, h2⟩ := h.get
      rw [h2] at hg; cases hg
      exact .inl (Emitted.get_keeps h2)
    · exact .inr (h.other hg hfg)

theorem Fresh.set {t : StrTable JVal} {f : JField} {v : JFieldVal} {e : Emitted}
    (h : e.Fresh t f v) {a : JAssign} (ha : a.field ≠ f) : (e.set a).Fresh t f v := by
  cases a <;> cases f <;> first | exact absurd rfl ha |
    (simp only [Emitted.set]; first | exact h | (split <;> exact h))

/-- Whatever lasts and holds of pair `k` in the one state holds of it in the other. -/
def World.Lasts (k : Nat) (w w' : World) : Prop :=
  ∀ P : StrTable JVal → Emitted → Prop, Lasting P → ∀ e, w.maps[k]? = some e → P w.strs e →
    ∃ e', w'.maps[k]? = some e' ∧ P w'.strs e'

theorem World.Lasts.of_run {more : List JOp} {w w' : World} {k : Nat} (e : w.runFrom more = .ok w')
    (hg : ∀ op ∈ more, ¬ op.gives k) (hset : ∀ a, .set k a ∉ more) : World.Lasts k w w' :=
  fun _ L _ hk hp => L.runFrom hk hp (fun ⟨op, h, h'⟩ => absurd h' (hg op h)) (fun a h => absurd h (hset a)) e

theorem World.Lasts.array {w w' : World} {k : Nat} (h : World.Lasts k w w') {e : Emitted} (hk : w.maps[k]? = some e) :
    ∃ x, w'.strs.array = w.strs.array ++ x := by
  obtain ⟨e', -, he⟩ := h (fun t (_ : Emitted) => ∃ x, t.array = w.strs.array ++ x)
    ⟨fun ⟨r, hr⟩ ⟨x, hx⟩ => ⟨x ++ r, by rw [hr, hx, List.append_assoc]⟩, fun h _ => h⟩ e hk ⟨[], by simp⟩
  exact he

end WS
