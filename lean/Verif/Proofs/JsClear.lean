import Verif.Model.JsClear
import Verif.Proofs.JsEmitted
/-! # Emitted pairs that are not used do not matter -/

namespace WS

/-- A statement with the numbers of its emitted pairs raised. -/
def MapArg.up (k : Nat) : MapArg → MapArg
  | .plain ss cs ns m => .plain ss cs ns m
  | .emitted i => .emitted (k + i)

def JOp.up (k : Nat) : JOp → JOp
  | .newSms v n m o i => .newSms v n (m.up k) o (i.map (MapArg.up k))
  | .get i f => .get (k + i) f
  | .set i a => .set (k + i) a
  | op => op

def JAnswer.up (k : Nat) : JAnswer → JAnswer
  | .pair i => .pair (k + i)
  | a => a

/-- The same state with pairs before its own. -/
def World.behind (pre : List Emitted) (w : World) : World := { w with maps := pre ++ w.maps }

variable {pre : List Emitted}

theorem World.behind_internAll (w : World) (vs : List JVal) :
    (w.behind pre).internAll vs = ((w.internAll vs).1, (w.internAll vs).2.behind pre) := by
  induction vs generalizing w with
  | nil => rfl
  | cons v vs ih =>
    simp only [World.internAll]
    have : (w.behind pre).intern v = ((w.intern v).1, (w.intern v).2.behind pre) := rfl
    rw [this, ih]

theorem World.behind_internAllNew (w : World) (vs : List JVal) :
    (w.behind pre).internAllNew vs = ((w.internAllNew vs).1, (w.internAllNew vs).2.behind pre) := by
  induction vs generalizing w with
  | nil => rfl
  | cons v vs ih =>
    simp only [World.internAllNew]
    have : (w.behind pre).internNew v = ((w.internNew v).1, (w.internNew v).2.behind pre) := rfl
    rw [this, ih]

theorem World.behind_call (w : World) (op : Op) :
    (w.behind pre).call op = (w.call op).map fun p => (p.1, p.2.behind pre) := by
  simp only [World.call, World.behind]
  cases op.run w.heap <;> rfl

theorem World.behind_create (w : World) (op : Op) (kind : JKind) :
    (w.behind pre).create op kind = (w.create op kind).map (World.behind pre) := by
  simp only [World.create, World.behind_call]
  cases w.call op <;> rfl

theorem World.behind_src (w : World) (s : JSrc) : (w.behind pre).src s = w.src s := by
  cases s <;> rfl

theorem World.behind_giveData (w : World) (ss cs ns : List JVal) (m : Str) :
    (w.behind pre).giveData ss cs ns m = ((w.giveData ss cs ns m).1, (w.giveData ss cs ns m).2.behind pre) := by
  simp only [World.giveData, World.behind_internAll, World.behind_internAllNew]

theorem behind_get? (w : World) (k : Nat) : (w.behind pre).maps[pre.length + k]? = w.maps[k]? := by
  simp only [World.behind]
  rw [List.getElem?_append_right (by omega)]
  congr 1
  omega

theorem behind_set (w : World) (k : Nat) (e : Emitted) :
    ({ w.behind pre with maps := (w.behind pre).maps.set (pre.length + k) e } : World) =
      World.behind pre { w with maps := w.maps.set k e } := by
  simp only [World.behind]
  rw [List.set_append_right _ _ (by omega)]
  simp

theorem World.behind_give (w : World) (a : MapArg) :
    (w.behind pre).give (a.up pre.length) = (w.give a).map fun p => (p.1, p.2.behind pre) := by
  cases a with
  | plain ss cs ns m =>
    simp only [MapArg.up, World.give, World.behind_giveData]
    rfl
  | emitted k =>
    simp only [MapArg.up, World.give, behind_get?]
    cases w.maps[k]? with
    | none => rfl
    | some e =>
      dsimp only
      split
      · rw [behind_set]; rfl
      · have h1 : ∀ e : Emitted, e.getSources (w.behind pre) = e.getSources w := fun _ => rfl
        have h2 : ∀ e : Emitted, e.getContents (w.behind pre) = e.getContents w := fun _ => rfl
        have h3 : ∀ e : Emitted, e.getNames (w.behind pre) = e.getNames w := fun _ => rfl
        rw [h1]
        cases e.getSources w with
        | error x => rfl
        | ok a =>
          simp only [Except.bind, h2]
          cases a.2.getContents w with
          | error x => rfl
          | ok b =>
            simp only []
            cases b.2.getMappings with
            | error x => rfl
            | ok c =>
              simp only [h3]
              cases c.2.getNames w with
              | error x => rfl
              | ok d =>
                simp only [Except.map, behind_set, World.behind_giveData]

theorem World.behind_giveInner (w : World) (a : Option MapArg) :
    (w.behind pre).giveInner (a.map (MapArg.up pre.length)) =
      (w.giveInner a).map fun p => (p.1, p.2.behind pre) := by
  cases a with
  | none => rfl
  | some a =>
    simp only [Option.map, World.giveInner, World.behind_give]
    cases w.give a <;> rfl

theorem World.behind_addItem (w : World) (j : Nat) (i : JSrc) :
    (w.behind pre).addItem j i = (w.addItem j i).map (World.behind pre) := by
  simp only [World.addItem, World.behind_src, World.behind_call]
  have : (w.behind pre).objs = w.objs := rfl
  rw [this]
  split
  · cases w.src i with
    | error e => rfl
    | ok s =>
      simp only [Except.bind]
      cases w.call _ <;> rfl
  · rfl

theorem World.behind_addItems (w : World) (j : Nat) (is : List JSrc) :
    (w.behind pre).addItems j is = (w.addItems j is).map (World.behind pre) := by
  induction is generalizing w with
  | nil => rfl
  | cons i is ih =>
    simp only [World.addItems, World.behind_addItem]
    cases w.addItem j i with
    | error e => rfl
    | ok w' => exact ih w'

theorem World.behind_readSource (w : World) (j : Nat) :
    (w.behind pre).readSource j = (w.readSource j).map fun p => (p.1, p.2.behind pre) := by
  simp only [World.readSource, World.behind_call]
  have : (w.behind pre).objs = w.objs := rfl
  rw [this]
  cases w.objs[j]? with
  | none => rfl
  | some o =>
    dsimp only
    cases o.kind.value with
    | some v => rfl
    | none =>
      dsimp only
      cases w.call (.source o.ptr) with
      | error e => rfl
      | ok p => obtain ⟨a, w'⟩ := p; cases a <;> rfl

theorem World.behind_readSize (w : World) (j : Nat) :
    (w.behind pre).readSize j = (w.readSize j).map fun p => (p.1, p.2.behind pre) := by
  simp only [World.readSize, World.behind_call]
  have : (w.behind pre).objs = w.objs := rfl
  rw [this]
  cases w.objs[j]? with
  | none => rfl
  | some o =>
    dsimp only
    cases o.kind.value with
    | some v => rfl
    | none =>
      dsimp only
      cases w.call (.size o.ptr) with
      | error e => rfl
      | ok p => obtain ⟨a, w'⟩ := p; cases a <;> rfl

theorem World.behind_hashEach {f : World → Nat → Except JErr (List Str × World)}
    (hf : ∀ w j, f (w.behind pre) j = (f w j).map fun p => (p.1, p.2.behind pre)) (w : World) (cs : List JSrc) :
    World.hashEach f (w.behind pre) cs = (World.hashEach f w cs).map fun p => (p.1, p.2.behind pre) := by
  induction cs generalizing w with
  | nil => rfl
  | cons c cs ih =>
    cases c with
    | str s =>
      simp only [World.hashEach, ih]
      cases World.hashEach f w cs <;> rfl
    | obj j =>
      simp only [World.hashEach, hf]
      cases f w j with
      | error e => rfl
      | ok p =>
        simp only [Except.map, Except.bind]
        rw [ih]
        cases World.hashEach f p.2 cs <;> rfl

theorem World.behind_hashObj (fuel : Nat) : ∀ (w : World) (j : Nat),
    World.hashObj fuel (w.behind pre) j = (World.hashObj fuel w j).map fun p => (p.1, p.2.behind pre) := by
  induction fuel with
  | zero => intro w j; rfl
  | succ fuel ih =>
    intro w j
    simp only [World.hashObj]
    have : (w.behind pre).objs = w.objs := rfl
    rw [this]
    cases w.objs[j]? with
    | none => rfl
    | some o =>
      dsimp only
      cases o.kind with
      | prefixed p c =>
        dsimp only
        rw [World.behind_hashEach ih]
        cases World.hashEach (World.hashObj fuel) w [c] <;> rfl
      | replace c =>
        dsimp only
        rw [World.behind_readSource]
        cases w.readSource j <;> rfl
      | concat cs =>
        dsimp only
        rw [World.behind_hashEach ih]
      | _ => rfl

theorem World.behind_emit (w : World) (j : Nat) (c m : Bool) :
    (w.behind pre).emit j c m = (w.emit j c m).map fun p => (p.1.up pre.length, p.2.behind pre) := by
  simp only [World.emit, World.behind_call]
  have : (w.behind pre).objs = w.objs := rfl
  rw [this]
  have hm : (w.behind pre).maps.length = pre.length + w.maps.length := by simp [World.behind]
  rw [hm]
  cases w.objs[j]? with
  | none => rfl
  | some o =>
    dsimp only
    split
    · rfl
    · split
      · cases w.call (.node o.ptr c m) with
        | error e => rfl
        | ok p =>
          obtain ⟨a, w'⟩ := p
          cases a <;> first | rfl | (simp [Except.map, Except.bind, World.behind, JAnswer.up])
      · cases w.call (.listMap o.ptr c m) with
        | error e => rfl
        | ok p =>
          obtain ⟨a, w'⟩ := p
          cases a <;> first | rfl | (simp [Except.map, Except.bind, World.behind, JAnswer.up])

theorem World.behind_newRaw (w : World) (v : Str) :
    (w.behind pre).newRaw v = (w.newRaw v).map (World.behind pre) := by
  simp only [World.newRaw, World.behind_create]
  have : (w.behind pre).raws = w.raws := rfl
  rw [this]
  cases w.raws.lookup v with
  | some p => rfl
  | none => dsimp only; cases w.create (.newRaw v) (.raw v) <;> rfl

theorem World.behind_newOriginal (w : World) (v n : Str) :
    (w.behind pre).newOriginal v n = (w.newOriginal v n).map (World.behind pre) := by
  have h : ((w.behind pre).internNew (some v)).2.intern (some n) =
      (((w.internNew (some v)).2.intern (some n)).1, ((w.internNew (some v)).2.intern (some n)).2.behind pre) := rfl
  have h' : ((w.behind pre).internNew (some v)).1 = (w.internNew (some v)).1 := rfl
  simp only [World.newOriginal, h, h', World.behind_create]
  split
  · have : ∀ w : World, (w.behind pre).boots = w.boots := fun _ => rfl
    rw [this]
    generalize List.lookup (α := Nat) (β := Nat) _ _ = L
    cases L with
    | some p => rfl
    | none =>
      dsimp only
      generalize hC : World.create _ _ _ = C
      cases C <;> rfl
  · rfl

theorem World.behind_newL2l (w : World) (v n o : Str) :
    (w.behind pre).newL2l v n o = (w.newL2l v n o).map (World.behind pre) := by
  have h : ((w.behind pre).intern (some n)).2.internNew (some o) =
      (((w.intern (some n)).2.internNew (some o)).1, ((w.intern (some n)).2.internNew (some o)).2.behind pre) := rfl
  have h' : ((w.behind pre).intern (some n)).1 = (w.intern (some n)).1 := rfl
  simp only [World.newL2l, h, h', World.behind_create]

theorem World.behind_newSms (w : World) (v n : Str) (m : MapArg) (o : Option Str) (i : Option MapArg) :
    (w.behind pre).newSms v n (m.up pre.length) o (i.map (MapArg.up pre.length)) =
      (w.newSms v n m o i).map (World.behind pre) := by
  have h : ((w.behind pre).internNew (some v)).2.intern (some n) =
      (((w.internNew (some v)).2.intern (some n)).1, ((w.internNew (some v)).2.intern (some n)).2.behind pre) := rfl
  have h' : ((w.behind pre).internNew (some v)).1 = (w.internNew (some v)).1 := rfl
  simp only [World.newSms, h, h', World.behind_give]
  generalize ((w.internNew (some v)).2.intern (some n)).2.give m = G
  cases G with
  | error e => rfl
  | ok p =>
    obtain ⟨hd, u⟩ := p
    simp only [Except.map, Except.bind]
    cases truthy o with
    | none =>
      simp only [World.behind_giveInner]
      cases u.giveInner i with
      | error e => rfl
      | ok q =>
        simp only [Except.map, World.behind_create]
    | some s =>
      have hs : (u.behind pre).internNew (some s) = ((u.internNew (some s)).1, (u.internNew (some s)).2.behind pre) := rfl
      simp only [hs, World.behind_giveInner]
      cases (u.internNew (some s)).2.giveInner i with
      | error e => rfl
      | ok q =>
        simp only [Except.map, World.behind_create]

theorem JOp.behind_run (w : World) (op : JOp) :
    (op.up pre.length).run (w.behind pre) = (op.run w).map fun p => (p.1.up pre.length, p.2.behind pre) := by
  cases op with
  | newRaw v => simp only [JOp.up, JOp.run, World.behind_newRaw]; cases w.newRaw v <;> rfl
  | newOriginal v n => simp only [JOp.up, JOp.run, World.behind_newOriginal]; cases w.newOriginal v n <;> rfl
  | newL2l v n o => simp only [JOp.up, JOp.run, World.behind_newL2l]; cases w.newL2l v n o <;> rfl
  | newSms v n m o i => simp only [JOp.up, JOp.run, World.behind_newSms]; cases w.newSms v n m o i <;> rfl
  | newPrefix p c =>
    simp only [JOp.up, JOp.run, World.behind_src, World.behind_create]
    cases w.src c with
    | error e => rfl
    | ok s => simp only [Except.bind]; cases w.create (.newPrefix p s) (.prefixed p c) <;> rfl
  | newReplace c =>
    simp only [JOp.up, JOp.run, World.behind_src, World.behind_create]
    cases w.src c with
    | error e => rfl
    | ok s => simp only [Except.bind]; cases w.create (.newReplace s) (.replace c) <;> rfl
  | newConcat is =>
    simp only [JOp.up, JOp.run, World.behind_create]
    cases w.create .newConcat (.concat []) with
    | error e => rfl
    | ok w' =>
      simp only [Except.map, Except.bind, World.behind_addItems]
      have : (w.behind pre).objs = w.objs := rfl
      rw [this]
      cases w'.addItems w.objs.length is <;> rfl
  | add j i => simp only [JOp.up, JOp.run, World.behind_addItem]; cases w.addItem j i <;> rfl
  | replace j a b t =>
    simp only [JOp.up, JOp.run, World.behind_call]
    have : (w.behind pre).objs = w.objs := rfl
    rw [this]
    split
    · generalize World.call _ _ = C
      cases C <;> rfl
    · rfl
  | insert j a t =>
    simp only [JOp.up, JOp.run, World.behind_call]
    have : (w.behind pre).objs = w.objs := rfl
    rw [this]
    split
    · generalize World.call _ _ = C
      cases C <;> rfl
    · rfl
  | source j => simp only [JOp.up, JOp.run, World.behind_readSource]; cases w.readSource j <;> rfl
  | size j => simp only [JOp.up, JOp.run, World.behind_readSize]; cases w.readSize j <;> rfl
  | sourceAndMap j c m => simp only [JOp.up, JOp.run, World.behind_emit]
  | hash j =>
    simp only [JOp.up, JOp.run]
    have : (w.behind pre).objs = w.objs := rfl
    rw [World.behind_hashObj, this]
    cases World.hashObj (w.objs.length + 1) w j <;> rfl
  | get k f =>
    simp only [JOp.up, JOp.run, behind_get?]
    cases w.maps[k]? with
    | none => rfl
    | some e =>
      have : e.get (w.behind pre) f = e.get w f := by cases f <;> rfl
      dsimp only
      rw [this]
      cases e.get w f with
      | error x => rfl
      | ok p => simp only [Except.map, behind_set]; rfl
  | set k a =>
    simp only [JOp.up, JOp.run, behind_get?]
    cases w.maps[k]? with
    | none => rfl
    | some e => dsimp only; rw [behind_set]; rfl

end WS
