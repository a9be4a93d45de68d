import Verif.Model.JsEdit
import Verif.Proofs.JsGiven
/-! # Arrays changed in place that nobody looks at do not matter -/

namespace WS

/-- Entries that were put into arrays of a map. -/
structure Over where
  sources : Option (List JVal)
  contents : Option (List JVal)
  names : Option (List JVal)

def Over.nothing : Over := ⟨none, none, none⟩

/-- The map with these entries. -/
def Over.on (o : Over) (e : Emitted) : Emitted :=
  { e with
    sources := match o.sources with | some l => some l | none => e.sources
    contents := match o.contents with | some l => some (some l) | none => e.contents
    names := match o.names with | some l => some l | none => e.names }

/-- Was the property changed? -/
def Over.has (o : Over) : JField → Bool
  | .sources => o.sources.isSome
  | .contents => o.contents.isSome
  | .names => o.names.isSome
  | _ => false

theorem Over.on_nothing (e : Emitted) : Over.nothing.on e = e := rfl

/-- The same state, with entries put into arrays. -/
def World.over (F : Nat → Over) (w : World) : World := { w with maps := w.maps.mapIdx fun k e => (F k).on e }

variable {F : Nat → Over}

theorem over_get? (w : World) (k : Nat) : (w.over F).maps[k]? = (w.maps[k]?).map (F k).on := by
  simp [World.over, List.getElem?_mapIdx]

theorem over_set (w : World) (k : Nat) (e : Emitted) :
    ({ w.over F with maps := (w.over F).maps.set k ((F k).on e) } : World) =
      World.over F { w with maps := w.maps.set k e } := by
  simp only [World.over]
  congr 1
  refine List.ext_getElem? fun i => ?_
  simp only [List.getElem?_set, List.getElem?_mapIdx, List.length_mapIdx]
  by_cases hi : k = i
  · subst hi
    simp only [if_true]
    split <;> rfl
  · simp only [hi, if_false]

theorem World.over_internAll (w : World) (vs : List JVal) :
    (w.over F).internAll vs = ((w.internAll vs).1, (w.internAll vs).2.over F) := by
  induction vs generalizing w with
  | nil => rfl
  | cons v vs ih =>
    simp only [World.internAll]
    have : (w.over F).intern v = ((w.intern v).1, (w.intern v).2.over F) := rfl
    rw [this, ih]

theorem World.over_internAllNew (w : World) (vs : List JVal) :
    (w.over F).internAllNew vs = ((w.internAllNew vs).1, (w.internAllNew vs).2.over F) := by
  induction vs generalizing w with
  | nil => rfl
  | cons v vs ih =>
    simp only [World.internAllNew]
    have : (w.over F).internNew v = ((w.internNew v).1, (w.internNew v).2.over F) := rfl
    rw [this, ih]

theorem World.over_call (w : World) (op : Op) :
    (w.over F).call op = (w.call op).map fun p => (p.1, p.2.over F) := by
  simp only [World.call, World.over]
  cases op.run w.heap <;> rfl

theorem World.over_create (w : World) (op : Op) (kind : JKind) :
    (w.over F).create op kind = (w.create op kind).map (World.over F) := by
  simp only [World.create, World.over_call]
  cases w.call op <;> rfl

theorem World.over_src (w : World) (s : JSrc) : (w.over F).src s = w.src s := by
  cases s <;> rfl

theorem World.over_giveData (w : World) (ss cs ns : List JVal) (m : Str) :
    (w.over F).giveData ss cs ns m = ((w.giveData ss cs ns m).1, (w.giveData ss cs ns m).2.over F) := by
  simp only [World.giveData, World.over_internAll, World.over_internAllNew]

/-! ## Reads -/

theorem Over.on_data (o : Over) (e : Emitted) : (o.on e).data = e.data.map fun p => (p.1, o.on p.2) := by
  simp only [Emitted.data]
  have : (o.on e).wasm = e.wasm := rfl
  rw [this]
  cases e.wasm with
  | none => rfl
  | some wm =>
    dsimp only
    cases wm.getMap <;> rfl

theorem Over.on_getSources (o : Over) (w : World) (e : Emitted) (h : o.sources = none) :
    (o.on e).getSources w = (e.getSources w).map fun p => (p.1, o.on p.2) := by
  simp only [Emitted.getSources, Over.on_data]
  have hs : (o.on e).sources = e.sources := by simp [Over.on, h]
  rw [hs]
  cases e.sources with
  | some l => rfl
  | none =>
    dsimp only
    cases e.data with
    | error x => rfl
    | ok p =>
      simp only [Except.map, Except.bind]
      cases w.resolve p.1.sources with
      | error x => rfl
      | ok l => simp [Over.on, h]

theorem Over.on_getContents (o : Over) (w : World) (e : Emitted) (h : o.contents = none) :
    (o.on e).getContents w = (e.getContents w).map fun p => (p.1, o.on p.2) := by
  simp only [Emitted.getContents, Over.on_data]
  have hs : (o.on e).contents = e.contents := by simp [Over.on, h]
  rw [hs]
  cases e.contents with
  | some l => rfl
  | none =>
    dsimp only
    cases e.data with
    | error x => rfl
    | ok p =>
      simp only [Except.map, Except.bind]
      cases w.resolve p.1.sourcesContent with
      | error x => rfl
      | ok l => simp [Over.on, h]

theorem Over.on_getMappings (o : Over) (e : Emitted) :
    (o.on e).getMappings = e.getMappings.map fun p => (p.1, o.on p.2) := by
  simp only [Emitted.getMappings, Over.on_data]
  have hs : (o.on e).mappings = e.mappings := rfl
  rw [hs]
  cases e.mappings with
  | some l => rfl
  | none =>
    dsimp only
    cases e.data <;> rfl

theorem Over.on_getNames (o : Over) (w : World) (e : Emitted) (h : o.names = none) :
    (o.on e).getNames w = (e.getNames w).map fun p => (p.1, o.on p.2) := by
  simp only [Emitted.getNames, Over.on_data]
  have hs : (o.on e).names = e.names := by simp [Over.on, h]
  have hn : (o.on e).hasNames = e.hasNames := rfl
  rw [hs, hn]
  split
  · cases e.names with
    | some l => rfl
    | none =>
      dsimp only
      cases e.data with
      | error x => rfl
      | ok p =>
        simp only [Except.map, Except.bind]
        cases w.resolve p.1.names with
        | error x => rfl
        | ok l => simp [Over.on, h]
  · rfl

theorem Over.on_getSource (o : Over) (e : Emitted) :
    (o.on e).getSource = e.getSource.map fun p => (p.1, o.on p.2) := by
  simp only [Emitted.getSource]
  have hs : (o.on e).source = e.source := rfl
  have hw : (o.on e).wasm = e.wasm := rfl
  rw [hs, hw]
  cases e.source with
  | some l => rfl
  | none =>
    dsimp only
    cases e.wasm <;> rfl

theorem Over.on_get (o : Over) (w : World) (e : Emitted) (f : JField) (h : o.has f = false) :
    (o.on e).get w f = (e.get w f).map fun p => (p.1, o.on p.2) := by
  cases f with
  | source => simp only [Emitted.get, Over.on_getSource]; cases e.getSource <;> rfl
  | sources =>
    simp only [Emitted.get, Over.on_getSources o w e (by simpa [Over.has] using h)]
    cases e.getSources w <;> rfl
  | contents =>
    simp only [Emitted.get, Over.on_getContents o w e (by simpa [Over.has] using h)]
    cases e.getContents w <;> rfl
  | mappings => simp only [Emitted.get, Over.on_getMappings]; cases e.getMappings <;> rfl
  | names =>
    simp only [Emitted.get, Over.on_getNames o w e (by simpa [Over.has] using h)]
    cases e.getNames w <;> rfl

/-! ## Giving -/

/-- The map is not one with changed arrays, or goes to wasm as it is. -/
def World.Passes (F : Nat → Over) (w : World) : MapArg → Prop
  | .plain .. => True
  | .emitted k => F k = .nothing ∨ ∀ e, w.maps[k]? = some e → e.modified = false ∧ e.wasm.isSome

theorem World.over_give (w : World) (a : MapArg) (h : w.Passes F a) :
    (w.over F).give a = (w.give a).map fun p => (p.1, p.2.over F) := by
  cases a with
  | plain ss cs ns m =>
    simp only [World.give, World.over_giveData]
    rfl
  | emitted k =>
    simp only [World.give, over_get?]
    cases he : w.maps[k]? with
    | none => rfl
    | some e =>
      dsimp only [Option.map]
      have hm : ((F k).on e).modified = e.modified := rfl
      have hw : ((F k).on e).wasm = e.wasm := rfl
      rw [hm, hw]
      cases hc : (if e.modified then none else e.wasm) with
      | some wm =>
        have hset := over_set (F := F) w k { e with wasm := none }
        exact congrArg Except.ok (Prod.ext rfl hset)
      | none =>
        have hF : F k = .nothing := by
          rcases h with h | h
          · exact h
          · obtain ⟨h1, h2⟩ := h e he
            rw [h1] at hc
            simp only [Bool.false_eq_true, if_false] at hc
            rw [hc] at h2
            cases h2
        have hon : ∀ e, (F k).on e = e := by intro e; rw [hF]; rfl
        have hset : ∀ e, ({ w.over F with maps := (w.over F).maps.set k e } : World) =
            World.over F { w with maps := w.maps.set k e } := by
          intro e
          have := over_set (F := F) w k e
          rw [hon] at this
          exact this
        dsimp only
        rw [hon]
        have h1 : ∀ e : Emitted, e.getSources (w.over F) = e.getSources w := fun _ => rfl
        have h2 : ∀ e : Emitted, e.getContents (w.over F) = e.getContents w := fun _ => rfl
        have h3 : ∀ e : Emitted, e.getNames (w.over F) = e.getNames w := fun _ => rfl
        rw [h1]
        cases e.getSources w with
        | error x => rfl
        | ok a =>
          simp only [Except.bind, h2]
          cases a.2.getContents w with
          | error x => rfl
          | ok b =>
            simp only []
            cases b.2.getMappings with
            | error x => rfl
            | ok c =>
              simp only [h3]
              cases c.2.getNames w with
              | error x => rfl
              | ok d =>
                simp only [Except.map, hset, World.over_giveData]

theorem World.over_giveInner (w : World) (a : Option MapArg) (h : ∀ x, a = some x → w.Passes F x) :
    (w.over F).giveInner a = (w.giveInner a).map fun p => (p.1, p.2.over F) := by
  cases a with
  | none => rfl
  | some a =>
    simp only [World.giveInner, World.over_give w a (h a rfl)]
    cases w.give a <;> rfl

/-! ## Statements -/

theorem World.over_addItem (w : World) (j : Nat) (i : JSrc) :
    (w.over F).addItem j i = (w.addItem j i).map (World.over F) := by
  simp only [World.addItem, World.over_src, World.over_call]
  have : (w.over F).objs = w.objs := rfl
  rw [this]
  split
  · cases w.src i with
    | error e => rfl
    | ok s =>
      simp only [Except.bind]
      cases w.call _ <;> rfl
  · rfl

theorem World.over_addItems (w : World) (j : Nat) (is : List JSrc) :
    (w.over F).addItems j is = (w.addItems j is).map (World.over F) := by
  induction is generalizing w with
  | nil => rfl
  | cons i is ih =>
    simp only [World.addItems, World.over_addItem]
    cases w.addItem j i with
    | error e => rfl
    | ok w' => exact ih w'

theorem World.over_readSource (w : World) (j : Nat) :
    (w.over F).readSource j = (w.readSource j).map fun p => (p.1, p.2.over F) := by
  simp only [World.readSource, World.over_call]
  have : (w.over F).objs = w.objs := rfl
  rw [this]
  cases w.objs[j]? with
  | none => rfl
  | some o =>
    dsimp only
    cases o.kind.value with
    | some v => rfl
    | none =>
      dsimp only
      cases w.call (.source o.ptr) with
      | error e => rfl
      | ok p => obtain ⟨a, w'⟩ := p; cases a <;> rfl

theorem World.over_readSize (w : World) (j : Nat) :
    (w.over F).readSize j = (w.readSize j).map fun p => (p.1, p.2.over F) := by
  simp only [World.readSize, World.over_call]
  have : (w.over F).objs = w.objs := rfl
  rw [this]
  cases w.objs[j]? with
  | none => rfl
  | some o =>
    dsimp only
    cases o.kind.value with
    | some v => rfl
    | none =>
      dsimp only
      cases w.call (.size o.ptr) with
      | error e => rfl
      | ok p => obtain ⟨a, w'⟩ := p; cases a <;> rfl

theorem World.over_hashEach {f : World → Nat → Except JErr (List Str × World)}
    (hf : ∀ w j, f (w.over F) j = (f w j).map fun p => (p.1, p.2.over F)) (w : World) (cs : List JSrc) :
    World.hashEach f (w.over F) cs = (World.hashEach f w cs).map fun p => (p.1, p.2.over F) := by
  induction cs generalizing w with
  | nil => rfl
  | cons c cs ih =>
    cases c with
    | str s =>
      simp only [World.hashEach, ih]
      cases World.hashEach f w cs <;> rfl
    | obj j =>
      simp only [World.hashEach, hf]
      cases f w j with
      | error e => rfl
      | ok p =>
        simp only [Except.map, Except.bind]
        rw [ih]
        cases World.hashEach f p.2 cs <;> rfl

theorem World.over_hashObj (fuel : Nat) : ∀ (w : World) (j : Nat),
    World.hashObj fuel (w.over F) j = (World.hashObj fuel w j).map fun p => (p.1, p.2.over F) := by
  induction fuel with
  | zero => intro w j; rfl
  | succ fuel ih =>
    intro w j
    simp only [World.hashObj]
    have : (w.over F).objs = w.objs := rfl
    rw [this]
    cases w.objs[j]? with
    | none => rfl
    | some o =>
      dsimp only
      cases o.kind with
      | prefixed p c =>
        dsimp only
        rw [World.over_hashEach ih]
        cases World.hashEach (World.hashObj fuel) w [c] <;> rfl
      | replace c =>
        dsimp only
        rw [World.over_readSource]
        cases w.readSource j <;> rfl
      | concat cs =>
        dsimp only
        rw [World.over_hashEach ih]
      | _ => rfl

theorem over_push {w : World} (w' : World) (hF : F w.maps.length = .nothing) (e : Emitted) :
    ({ w'.over F with maps := (w.over F).maps ++ [e] } : World) =
      World.over F { w' with maps := w.maps ++ [e] } := by
  simp only [World.over, List.mapIdx_append, List.mapIdx_cons, List.mapIdx_nil, Nat.zero_add, hF, Over.on_nothing]

theorem World.over_emit (w : World) (j : Nat) (c m : Bool) (hF : F w.maps.length = .nothing) :
    (w.over F).emit j c m = (w.emit j c m).map fun p => (p.1, p.2.over F) := by
  simp only [World.emit, World.over_call]
  have : (w.over F).objs = w.objs := rfl
  rw [this]
  have hm : (w.over F).maps.length = w.maps.length := by simp [World.over]
  rw [hm]
  cases w.objs[j]? with
  | none => rfl
  | some o =>
    dsimp only
    split
    · rfl
    · split
      · cases hc : w.call (.node o.ptr c m) with
        | error e => rfl
        | ok p =>
          obtain ⟨a, w'⟩ := p
          cases a <;> first | rfl | exact congrArg Except.ok (Prod.ext rfl (over_push w' hF _))
      · cases hc : w.call (.listMap o.ptr c m) with
        | error e => rfl
        | ok p =>
          obtain ⟨a, w'⟩ := p
          cases a <;> first | rfl | exact congrArg Except.ok (Prod.ext rfl (over_push w' hF _))

theorem World.over_newRaw (w : World) (v : Str) :
    (w.over F).newRaw v = (w.newRaw v).map (World.over F) := by
  simp only [World.newRaw, World.over_create]
  have : (w.over F).raws = w.raws := rfl
  rw [this]
  cases w.raws.lookup v with
  | some p => rfl
  | none => dsimp only; cases w.create (.newRaw v) (.raw v) <;> rfl

theorem World.over_newOriginal (w : World) (v n : Str) :
    (w.over F).newOriginal v n = (w.newOriginal v n).map (World.over F) := by
  have h : ((w.over F).internNew (some v)).2.intern (some n) =
      (((w.internNew (some v)).2.intern (some n)).1, ((w.internNew (some v)).2.intern (some n)).2.over F) := rfl
  have h' : ((w.over F).internNew (some v)).1 = (w.internNew (some v)).1 := rfl
  simp only [World.newOriginal, h, h', World.over_create]
  split
  · have : ∀ w : World, (w.over F).boots = w.boots := fun _ => rfl
    rw [this]
    generalize List.lookup (α := Nat) (β := Nat) _ _ = L
    cases L with
    | some p => rfl
    | none =>
      dsimp only
      generalize hC : World.create _ _ _ = C
      cases C <;> rfl
  · rfl

theorem World.over_newL2l (w : World) (v n o : Str) :
    (w.over F).newL2l v n o = (w.newL2l v n o).map (World.over F) := by
  have h : ((w.over F).intern (some n)).2.internNew (some o) =
      (((w.intern (some n)).2.internNew (some o)).1, ((w.intern (some n)).2.internNew (some o)).2.over F) := rfl
  have h' : ((w.over F).intern (some n)).1 = (w.intern (some n)).1 := rfl
  simp only [World.newL2l, h, h', World.over_create]

theorem World.over_newSms (w : World) (v n : Str) (m : MapArg) (o : Option Str) (i : Option MapArg)
    (hm : w.Passes F m) (hi : ∀ x, i = some x → w.Passes F x ∧ ∀ k, x = .emitted k → m = .emitted k → F k = .nothing) :
    (w.over F).newSms v n m o i = (w.newSms v n m o i).map (World.over F) := by
  have h : ((w.over F).internNew (some v)).2.intern (some n) =
      (((w.internNew (some v)).2.intern (some n)).1, ((w.internNew (some v)).2.intern (some n)).2.over F) := rfl
  have h' : ((w.over F).internNew (some v)).1 = (w.internNew (some v)).1 := rfl
  have hp : ∀ {u : World} {a : MapArg}, u.maps = w.maps → w.Passes F a → u.Passes F a := by
    intro u a hu ha
    cases a with
    | plain => trivial
    | emitted k => exact ha.imp_right fun x e he => x e (by rw [← hu]; exact he)
  simp only [World.newSms, h, h']
  rw [World.over_give ((w.internNew (some v)).2.intern (some n)).2 m (hp rfl hm)]
  cases hG : ((w.internNew (some v)).2.intern (some n)).2.give m with
  | error e => rfl
  | ok p =>
    obtain ⟨hd, u⟩ := p
    have hu : ∀ x, i = some x → u.Passes F x := by
      intro x hx
      obtain ⟨h1, h2⟩ := hi x hx
      cases x with
      | plain => trivial
      | emitted k =>
        by_cases hk : m = .emitted k
        · exact .inl (h2 k rfl hk)
        · have huk : u.maps[k]? = w.maps[k]? := by
            cases m with
            | plain ss cs ns mp =>
              simp only [World.give, Except.ok.injEq] at hG
              have := World.giveData_maps ((w.internNew (some v)).2.intern (some n)).2 ss cs ns mp
              rw [hG] at this
              exact congrArg (fun l => l[k]?) this
            | emitted l =>
              have hlk : l ≠ k := fun e => hk (by rw [e])
              simp only [World.give] at hG
              split at hG
              · cases hG
              · split at hG
                · cases hG
                  exact List.getElem?_set_ne hlk
                · simp only [Except.bind_ok_iff, Except.map_ok_iff] at hG
                  obtain ⟨a, -, b, -, c, -, d, -, r⟩ := hG
                  have := World.giveData_maps { ((w.internNew (some v)).2.intern (some n)).2 with
                    maps := ((w.internNew (some v)).2.intern (some n)).2.maps.set l d.2 } a.1 (b.1.getD []) d.1 c.1
                  rw [r] at this
                  dsimp only at this
                  rw [this]
                  exact List.getElem?_set_ne hlk
          exact h1.imp_right fun x e he => x e (by rw [← huk]; exact he)
    simp only [Except.map, Except.bind]
    cases truthy o with
    | none =>
      simp only [World.over_giveInner u i hu]
      cases u.giveInner i with
      | error e => rfl
      | ok q =>
        simp only [Except.map, World.over_create]
    | some s =>
      have hs : (u.over F).internNew (some s) = ((u.internNew (some s)).1, (u.internNew (some s)).2.over F) := rfl
      have hu' : ∀ x, i = some x → (u.internNew (some s)).2.Passes F x := by
        intro x hx
        have := hu x hx
        cases x with
        | plain => trivial
        | emitted k => exact this
      simp only [hs, World.over_giveInner _ i hu']
      cases (u.internNew (some s)).2.giveInner i with
      | error e => rfl
      | ok q =>
        simp only [Except.map, World.over_create]

/-- The statement does not look at changed arrays. -/
def JOp.Blind (F : Nat → Over) (w : World) : JOp → Prop
  | .newSms _ _ m _ i => w.Passes F m ∧
      ∀ x, i = some x → w.Passes F x ∧ ∀ k, x = .emitted k → m = .emitted k → F k = .nothing
  | .get k f => (F k).has f = false
  | .set k a => F k = .nothing ∨ a.field = .source
  | _ => True

theorem JOp.over_run (w : World) (op : JOp) (hb : op.Blind F w) (hF : F w.maps.length = .nothing) :
    op.run (w.over F) = (op.run w).map fun p => (p.1, p.2.over F) := by
  cases op with
  | newRaw v => simp only [JOp.run, World.over_newRaw]; cases w.newRaw v <;> rfl
  | newOriginal v n => simp only [JOp.run, World.over_newOriginal]; cases w.newOriginal v n <;> rfl
  | newL2l v n o => simp only [JOp.run, World.over_newL2l]; cases w.newL2l v n o <;> rfl
  | newSms v n m o i =>
    simp only [JOp.run, World.over_newSms w v n m o i hb.1 hb.2]; cases w.newSms v n m o i <;> rfl
  | newPrefix p c =>
    simp only [JOp.run, World.over_src, World.over_create]
    cases w.src c with
    | error e => rfl
    | ok s => simp only [Except.bind]; cases w.create (.newPrefix p s) (.prefixed p c) <;> rfl
  | newReplace c =>
    simp only [JOp.run, World.over_src, World.over_create]
    cases w.src c with
    | error e => rfl
    | ok s => simp only [Except.bind]; cases w.create (.newReplace s) (.replace c) <;> rfl
  | newConcat is =>
    simp only [JOp.run, World.over_create]
    cases w.create .newConcat (.concat []) with
    | error e => rfl
    | ok w' =>
      simp only [Except.map, Except.bind, World.over_addItems]
      have : (w.over F).objs = w.objs := rfl
      rw [this]
      cases w'.addItems w.objs.length is <;> rfl
  | add j i => simp only [JOp.run, World.over_addItem]; cases w.addItem j i <;> rfl
  | replace j a b t =>
    simp only [JOp.run, World.over_call]
    have : (w.over F).objs = w.objs := rfl
    rw [this]
    split
    · generalize World.call _ _ = C
      cases C <;> rfl
    · rfl
  | insert j a t =>
    simp only [JOp.run, World.over_call]
    have : (w.over F).objs = w.objs := rfl
    rw [this]
    split
    · generalize World.call _ _ = C
      cases C <;> rfl
    · rfl
  | source j => simp only [JOp.run, World.over_readSource]; cases w.readSource j <;> rfl
  | size j => simp only [JOp.run, World.over_readSize]; cases w.readSize j <;> rfl
  | sourceAndMap j c m => simp only [JOp.run, World.over_emit w j c m hF]
  | hash j =>
    simp only [JOp.run]
    have : (w.over F).objs = w.objs := rfl
    rw [World.over_hashObj, this]
    cases World.hashObj (w.objs.length + 1) w j <;> rfl
  | get k f =>
    simp only [JOp.run, over_get?]
    cases w.maps[k]? with
    | none => rfl
    | some e =>
      have : ∀ e : Emitted, e.get (w.over F) f = e.get w f := by intro e; cases f <;> rfl
      dsimp only [Option.map]
      rw [this, Over.on_get (F k) w e f hb]
      cases e.get w f with
      | error x => rfl
      | ok p => simp only [Except.map, over_set]
  | set k a =>
    have hon : ∀ e : Emitted, ((F k).on e).set a = (F k).on (e.set a) := by
      intro e
      rcases hb with h | h
      · rw [h]; rfl
      · cases a <;> first | rfl | cases h
    simp only [JOp.run, over_get?]
    cases w.maps[k]? with
    | none => rfl
    | some e =>
      dsimp only [Option.map]
      rw [hon, over_set]
      rfl

/-! ## Changing -/

/-- One more array changed. -/
def Over.with (o : Over) : AField → List JVal → Over
  | .sources, l => { o with sources := some l }
  | .contents, l => { o with contents := some l }
  | .names, l => { o with names := some l }

theorem Over.with_on (o : Over) (f : AField) (l : List JVal) (e : Emitted) : (o.with f l).on e = (o.on e).put f l := by
  cases f <;> rfl

theorem Over.with_has {o : Over} {f : AField} {l : List JVal} {g : JField} (h : (o.with f l).has g = true) :
    o.has g = true ∨ g = f.field := by
  cases f <;> cases g <;> first | exact .inr rfl | exact .inl h

theorem over_with (w : World) (k : Nat) (e : Emitted) (f : AField) (l : List JVal) (hk : w.maps[k]? = some e) :
    ({ w.over F with maps := (w.over F).maps.set k (((F k).on e).put f l) } : World) =
      w.over (fun i => if i = k then (F k).with f l else F i) := by
  simp only [World.over]
  congr 1
  refine List.ext_getElem? fun i => ?_
  simp only [List.getElem?_set, List.getElem?_mapIdx, List.length_mapIdx]
  by_cases hi : k = i
  · subst hi
    obtain ⟨hl, -⟩ := List.getElem?_eq_some_iff.mp hk
    simp only [if_true, hl, hk, Option.map, Over.with_on]
  · have hi' : ¬ i = k := fun h => hi h.symm
    simp only [hi, hi', if_false]

/-! ## New pairs -/

theorem World.emit_pairs {w w' : World} {j : Nat} {c m : Bool} {a : JAnswer} (r : w.emit j c m = .ok (a, w')) :
    ∃ l : List Emitted, w'.maps = w.maps ++ l ∧ ∀ e ∈ l, e.modified = false ∧ e.wasm.isSome = true := by
  simp only [World.emit] at r
  split at r
  · cases r
  split at r
  · cases r; exact ⟨[], by simp, by simp⟩
  split at r
  · simp only [Except.bind_ok_iff] at r
    obtain ⟨⟨a, w1⟩, h1, h2⟩ := r
    split at h2
    · cases h2
      refine ⟨_, rfl, fun e h => ?_⟩
      simp only [List.mem_singleton] at h
      subst h
      exact ⟨rfl, rfl⟩
    · cases h2
  · simp only [Except.bind_ok_iff] at r
    obtain ⟨⟨a, w1⟩, h1, h2⟩ := r
    split at h2
    · cases h2
      refine ⟨_, rfl, fun e h => ?_⟩
      simp only [List.mem_singleton] at h
      subst h
      exact ⟨rfl, rfl⟩
    · cases h2

/-- A pair that was not there before is fresh. -/
theorem JOp.run_new {w w' : World} {op : JOp} {a : JAnswer} (r : op.run w = .ok (a, w')) :
    w.maps.length ≤ w'.maps.length ∧ ∀ k e, w.maps.length ≤ k → w'.maps[k]? = some e →
      e.modified = false ∧ e.wasm.isSome = true := by
  by_cases hn : ∃ j c m, op = .sourceAndMap j c m
  · obtain ⟨j, c, m, rfl⟩ := hn
    obtain ⟨l, h1, h2⟩ := World.emit_pairs r
    rw [h1]
    refine ⟨by simp, fun k e hk he => h2 e ?_⟩
    rw [List.getElem?_append_right hk] at he
    exact List.mem_of_getElem? he
  · have := JOp.run_maps_length r (fun j c m h => hn ⟨j, c, m, h⟩)
    refine ⟨by omega, fun k e hk he => ?_⟩
    obtain ⟨hl, -⟩ := List.getElem?_eq_some_iff.mp he
    omega

end WS
