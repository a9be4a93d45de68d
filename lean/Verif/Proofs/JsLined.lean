import Verif.Proofs.JsPaired
import Verif.Proofs.NodeLines
/-! # Original lines in programs

When no text given to `OriginalSource` or `LineToLineMappedSource` has more than 2^32 lines, every
original line in the maps of a program lies between 1 and 2^32. -/

namespace WS
open Spec

def Emitted.Lined (e : Emitted) : Prop := ∀ wm g, e.wasm = some wm → wm.gen = some g → g.Lined

structure World.Lined (w : World) : Prop where
  heap : Heap.All Obj.Lined w.heap
  maps : ∀ e ∈ w.maps, e.Lined

def Answer.Lined : Answer → Prop
  | .node n => n.Lined
  | _ => True

theorem Op.run_answer_lined {op : Op} {h h' : Heap} {a : Answer} (H : Heap.All Obj.Lined h)
    (e : op.run h = .ok (a, h')) : a.Lined := by
  cases op <;> simp only [Op.run, Except.map_ok_iff] at e
  case node j c m =>
    obtain ⟨p, e, q⟩ := e
    cases q
    exact (hNode_lined _ _ _ _ _ _ _ _ H e).1
  all_goals first
    | (obtain ⟨p, e, q⟩ := e; cases q; trivial)
    | (cases e; trivial)
    | (split at e <;> cases e; trivial)

/-! ## Emitted pairs -/

theorem WasmMap.getMap_lined {w w' : WasmMap} {m : SourceMap} (h : ∀ g, w.gen = some g → g.Lined)
    (e : w.getMap = .ok (m, w')) : ∀ g, w'.gen = some g → g.Lined := by
  simp only [WasmMap.getMap] at e
  split at e
  · cases e; exact h
  · split at e
    · cases e
    · split at e
      · cases e
      · rename_i g0 e0 _ m g1 e1
        cases e
        intro g eg
        cases eg
        exact (h _ e0).toSourceMap e1

theorem Emitted.Lined.data {e : Emitted} (h : e.Lined) : Post (fun p => p.2.Lined) e.data := by
  simp only [Emitted.data]
  split
  · trivial
  · rename_i wm hw
    split
    · trivial
    · rename_i m wm' em
      intro x g ex eg
      cases ex
      exact WasmMap.getMap_lined (fun g hg => h wm g hw hg) em g eg

theorem Emitted.Lined.of {e e' : Emitted} (h : e.Lined) (he : e'.wasm = e.wasm) : e'.Lined :=
  fun wm g a b => h wm g (he ▸ a) b

theorem Emitted.Lined.getSources {e : Emitted} (h : e.Lined) (w : World) :
    Post (fun p => p.2.Lined) (e.getSources w) := by
  simp only [Emitted.getSources]
  split
  · exact h
  · exact h.data.bind fun p hp => (Post.any _).map fun _ _ => hp.of rfl

theorem Emitted.Lined.getContents {e : Emitted} (h : e.Lined) (w : World) :
    Post (fun p => p.2.Lined) (e.getContents w) := by
  simp only [Emitted.getContents]
  split
  · exact h
  · exact h.data.bind fun p hp => (Post.any _).map fun _ _ => hp.of rfl

theorem Emitted.Lined.getMappings {e : Emitted} (h : e.Lined) :
    Post (fun p => p.2.Lined) e.getMappings := by
  simp only [Emitted.getMappings]
  split
  · exact h
  · exact h.data.map fun p hp => hp.of rfl

theorem Emitted.Lined.getNames {e : Emitted} (h : e.Lined) (w : World) :
    Post (fun p => p.2.Lined) (e.getNames w) := by
  simp only [Emitted.getNames]
  split
  · split
    · exact h
    · exact h.data.bind fun p hp => (Post.any _).map fun _ _ => hp.of rfl
  · exact h

theorem Emitted.Lined.get {e : Emitted} (h : e.Lined) (w : World) (f : JField) :
    Post (fun p => p.2.Lined) (e.get w f) := by
  cases f with
  | source =>
    simp only [Emitted.get, Emitted.getSource]
    split
    · exact h
    · split
      · trivial
      · exact h.of rfl
  | sources => exact (h.getSources w).map fun _ hp => hp
  | contents => exact (h.getContents w).map fun _ hp => hp
  | mappings => exact h.getMappings.map fun _ hp => hp
  | names => exact (h.getNames w).map fun _ hp => hp

theorem Emitted.Lined.set {e : Emitted} (h : e.Lined) (a : JAssign) : (e.set a).Lined := by
  refine h.of ?_
  cases a <;> simp only [Emitted.set]
  split <;> rfl

theorem World.Lined.setMap {w : World} (W : w.Lined) {k : Nat} {e : Emitted} (h : e.Lined) :
    ({ w with maps := w.maps.set k e } : World).Lined :=
  ⟨W.heap, fun x hx => (List.mem_or_eq_of_mem_set hx).elim (W.maps x) (fun e => e ▸ h)⟩

theorem World.Lined.pushMap {w : World} (W : w.Lined) {e : Emitted} (h : e.Lined) :
    ({ w with maps := w.maps ++ [e] } : World).Lined :=
  ⟨W.heap, fun x hx => by
    rcases List.mem_append.1 hx with hx | hx
    · exact W.maps x hx
    · cases List.mem_singleton.1 hx; exact h⟩

theorem World.Lined.of {w w' : World} (W : w.Lined) (h : w'.heap = w.heap) (m : w'.maps = w.maps) :
    w'.Lined := ⟨by rw [h]; exact W.heap, by rw [m]; exact W.maps⟩

/-! ## Statements -/

theorem World.Lined.call {w : World} (W : w.Lined) {op : Op} (ho : Spec.Op.Fits op) :
    Post (fun p => p.2.Lined ∧ p.1.Lined ∧ p.2.maps = w.maps) (w.call op) := by
  simp only [World.call]
  cases e : op.run w.heap with
  | error p => trivial
  | ok p =>
    obtain ⟨a, h⟩ := p
    exact ⟨⟨Op.run_lined W.heap ho e, W.maps⟩, Op.run_answer_lined W.heap e, rfl⟩

theorem World.Lined.create {w : World} (W : w.Lined) {op : Op} (ho : Spec.Op.Fits op) (k : JKind) :
    Post (fun w' => w'.Lined) (w.create op k) :=
  (W.call ho).map fun _ hp => hp.1.of rfl rfl

theorem World.Lined.addItem {w : World} (W : w.Lined) (j : Nat) (i : JSrc) :
    Post (fun w' => w'.Lined) (w.addItem j i) := by
  simp only [World.addItem]
  split
  · exact (Post.any _).bind fun s _ => (W.call (op := .add _ s) trivial).map fun _ hp =>
      hp.1.of rfl rfl
  · trivial

theorem World.Lined.addItems {j : Nat} : ∀ {is : List JSrc} {w : World}, w.Lined →
    Post (fun w' => w'.Lined) (w.addItems j is)
  | [], _, W => W
  | i :: _, _, W => (W.addItem j i).bind fun _ h => World.Lined.addItems h

theorem World.Lined.readSource {w : World} (W : w.Lined) (j : Nat) :
    Post (fun p => p.2.Lined) (w.readSource j) := by
  simp only [World.readSource]
  split
  · trivial
  · split
    · exact W
    · refine (W.call (op := .source _) trivial).bind fun p hp => ?_
      split
      · exact hp.1
      · trivial

theorem World.Lined.readSize {w : World} (W : w.Lined) (j : Nat) :
    Post (fun p => p.2.Lined) (w.readSize j) := by
  simp only [World.readSize]
  split
  · trivial
  · split
    · exact W
    · refine (W.call (op := .size _) trivial).bind fun p hp => ?_
      split
      · exact hp.1
      · trivial

theorem World.Lined.hashEach {f : World → Nat → Except JErr (List Str × World)}
    (hf : ∀ w j, w.Lined → Post (fun p => p.2.Lined) (f w j)) :
    ∀ {cs : List JSrc} {w : World}, w.Lined →
    Post (fun p => p.2.Lined) (World.hashEach f w cs)
  | [], _, W => W
  | .str s :: cs, w, W => by
    simp only [World.hashEach]
    exact (World.Lined.hashEach hf W).map fun _ h => h
  | .obj j :: cs, w, W => by
    simp only [World.hashEach]
    exact (hf w j W).bind fun p hp => (World.Lined.hashEach hf hp).map fun _ h => h

theorem World.Lined.hashObj (n : Nat) : ∀ (w : World) (j : Nat), w.Lined →
    Post (fun p => p.2.Lined) (World.hashObj n w j) := by
  induction n with
  | zero => intro w j _; trivial
  | succ n ih =>
    intro w j W
    simp only [World.hashObj]
    split
    · trivial
    · split
      · exact W
      · exact W
      · exact W
      · exact W
      · exact (World.Lined.hashEach ih W).map fun _ h => h
      · exact (W.readSource j).map fun _ h => h
      · exact World.Lined.hashEach ih W

theorem World.Lined.emit {w : World} (W : w.Lined) (j : Nat) (c m : Bool) :
    Post (fun p => p.2.Lined) (w.emit j c m) := by
  simp only [World.emit]
  split
  · trivial
  · split
    · exact W
    · split
      · refine (W.call (op := .node _ _ _) trivial).bind fun p hp => ?_
        obtain ⟨a, w'⟩ := p
        obtain ⟨W', ha, hm⟩ := hp
        dsimp only at ha hm W' ⊢
        split
        · rename_i n
          have := W'.pushMap (e := Emitted.new ⟨(n.toStringWithGenerator none none).1, none,
            some (n.toStringWithGenerator none none).2⟩ true)
            (fun wm g a b => by cases a; cases b; exact toStringWithGenerator_lined ha none none)
          rw [hm] at this
          exact this
        · trivial
      · refine (W.call (op := .listMap _ _ _) trivial).bind fun p hp => ?_
        obtain ⟨a, w'⟩ := p
        obtain ⟨W', ha, hm⟩ := hp
        dsimp only at ha hm W' ⊢
        split
        · rename_i n
          have := W'.pushMap (e := Emitted.new ⟨(slmToStringWithSourceMap n none).source,
            some (slmToStringWithSourceMap n none).map, none⟩ false)
            (fun wm g a b => by cases a; cases b)
          rw [hm] at this
          exact this
        · trivial

theorem World.Lined.newRaw {w : World} (W : w.Lined) (v : Str) :
    Post (fun w' => w'.Lined) (w.newRaw v) := by
  simp only [World.newRaw]
  split
  · exact W.of rfl rfl
  · exact (W.create (op := .newRaw v) trivial _).map fun _ h => h.of rfl rfl

theorem World.Lined.newOriginal {w : World} (W : w.Lined) {v n : Str} (h : FewLines v) :
    Post (fun w' => w'.Lined) (w.newOriginal v n) := by
  have h2 : ((w.internNew (some v)).2.intern (some n)).2.Lined := W.of rfl rfl
  simp only [World.newOriginal]
  split
  · split
    · exact h2.of rfl rfl
    · exact (h2.create (op := .newOriginal v _ _) h _).map fun _ h => h.of rfl rfl
  · exact h2.create (op := .newOriginal v _ _) h _

theorem World.Lined.newL2l {w : World} (W : w.Lined) {v n o : Str} (h : FewLines v) :
    Post (fun w' => w'.Lined) (w.newL2l v n o) := by
  have h2 : ((w.intern (some n)).2.internNew (some o)).2.Lined := W.of rfl rfl
  exact h2.create (op := .newL2l v _ _) h _

theorem World.internAll_lined {l : List JVal} : ∀ {w : World}, w.Lined → (w.internAll l).2.Lined := by
  induction l with
  | nil => intro w W; exact W
  | cons v l ih => intro w W; exact ih (w := (w.intern v).2) (W.of rfl rfl)

theorem World.internAllNew_lined {l : List JVal} :
    ∀ {w : World}, w.Lined → (w.internAllNew l).2.Lined := by
  induction l with
  | nil => intro w W; exact W
  | cons v l ih => intro w W; exact ih (w := (w.internNew v).2) (W.of rfl rfl)

theorem World.Lined.giveData {w : World} (W : w.Lined) (a b c : List JVal) (m : Str) :
    (w.giveData a b c m).2.Lined ∧ (w.giveData a b c m).1.Lined :=
  ⟨World.internAll_lined (World.internAllNew_lined (World.internAll_lined W)), fun g hg => by cases hg⟩

theorem World.Lined.give {w : World} (W : w.Lined) (a : MapArg) :
    Post (fun p => p.2.Lined ∧ p.1.Lined) (w.give a) := by
  cases a with
  | plain ss cs ns m => exact W.giveData ..
  | emitted k =>
    simp only [World.give]
    split
    · trivial
    · rename_i e he
      have hw := W.maps e (List.mem_of_getElem? he)
      split
      · rename_i wm hwm
        have hwm : e.wasm = some wm := by
          split at hwm
          · cases hwm
          · exact hwm
        exact ⟨W.setMap fun _ _ h => (by cases h), fun g hg => hw wm g hwm hg⟩
      · refine (hw.getSources w).bind fun a ha => (ha.getContents w).bind fun b hb =>
          hb.getMappings.bind fun c hc => (hc.getNames w).map fun d hd => ?_
        exact (W.setMap hd).giveData ..

theorem World.Lined.giveInner {w : World} (W : w.Lined) (a : Option MapArg) :
    Post (fun p => p.2.Lined ∧ ∀ i, p.1 = some i → i.Lined) (w.giveInner a) := by
  cases a with
  | none => exact ⟨W, fun i h => by cases h⟩
  | some a =>
    simp only [World.giveInner]
    exact (W.give a).map fun p hp => ⟨hp.1, fun i h => by cases h; exact hp.2⟩

/-- No text of more than 2^32 lines is given to the classes that count lines. -/
def Spec.JOp.FewLines : JOp → Prop
  | .newOriginal v _ => Spec.FewLines v
  | .newL2l v _ _ => Spec.FewLines v
  | _ => True

theorem World.Lined.newSms {w : World} (W : w.Lined) (v n : Str) (m : MapArg) (o : Option Str)
    (i : Option MapArg) : Post (fun w' => w'.Lined) (w.newSms v n m o i) := by
  have h2 : ((w.internNew (some v)).2.intern (some n)).2.Lined := W.of rfl rfl
  simp only [World.newSms]
  refine (h2.give m).bind fun p hp => ?_
  obtain ⟨hd, w1⟩ := p
  obtain ⟨W1, hh⟩ := hp
  dsimp only at W1 hh ⊢
  have rest : ∀ q : Option Int × World, q.2.Lined →
      Post (fun w' => w'.Lined) ((q.2.giveInner i).bind fun i =>
        i.2.create (.newSms v (w.internNew (some v)).1
          ((w.internNew (some v)).2.intern (some n)).1 hd q.1 i.1) (.sms v (truthy o))) := by
    intro q W2
    refine (W2.giveInner i).bind fun p hp => ?_
    exact hp.1.create (op := .newSms v _ _ hd q.1 p.1) ⟨hh, hp.2⟩ _
  refine rest _ ?_
  split
  · exact W1.of rfl rfl
  · exact W1

theorem JOp.run_lined {w : World} (W : w.Lined) {op : JOp} (h : Spec.JOp.FewLines op) :
    Post (fun p => p.2.Lined) (op.run w) := by
  cases op with
  | newRaw v => exact (W.newRaw v).map fun _ h => h
  | newOriginal v n => exact (W.newOriginal h).map fun _ h => h
  | newL2l v n o => exact (W.newL2l h).map fun _ h => h
  | newSms v n m o i => exact (W.newSms v n m o i).map fun _ h => h
  | newPrefix p c =>
    exact (Post.any _).bind fun s _ => (W.create (op := .newPrefix p s) trivial _).map fun _ h => h
  | newReplace c =>
    exact (Post.any _).bind fun s _ => (W.create (op := .newReplace s) trivial _).map fun _ h => h
  | newConcat items =>
    simp only [JOp.run]
    exact (W.create (op := .newConcat) trivial _).bind fun w1 h =>
      (World.Lined.addItems (j := w.objs.length) (is := items) h).map fun _ h => h
  | add j item => exact (W.addItem j item).map fun _ h => h
  | replace j a b t =>
    simp only [JOp.run]
    split
    · exact (W.call (op := .replace _ _ _ _ _ _) trivial).map fun _ h => h.1
    · trivial
  | insert j a t =>
    simp only [JOp.run]
    split
    · exact (W.call (op := .insert _ _ _ _) trivial).map fun _ h => h.1
    · trivial
  | source j => exact (W.readSource j).map fun _ h => h
  | size j => exact (W.readSize j).map fun _ h => h
  | sourceAndMap j c m => exact W.emit j c m
  | hash j => exact (World.Lined.hashObj _ w j W).map fun _ h => h
  | get k f =>
    simp only [JOp.run]
    split
    · trivial
    · exact ((W.maps _ (List.mem_of_getElem? ‹_›)).get w f).map fun _ hp => W.setMap hp
  | set k a =>
    simp only [JOp.run]
    split
    · trivial
    · exact W.setMap ((W.maps _ (List.mem_of_getElem? ‹_›)).set a)

theorem World.Lined.runFrom : ∀ {ops : List JOp} {w : World}, w.Lined →
    (∀ op ∈ ops, Spec.JOp.FewLines op) → Post (fun w' => w'.Lined) (w.runFrom ops)
  | [], _, W, _ => W
  | op :: _, _, W, h => (JOp.run_lined W (h op (List.mem_cons_self ..))).bind fun _ hp =>
      World.Lined.runFrom hp (fun op ho => h op (List.mem_cons_of_mem _ ho))

theorem World.empty_lined : World.empty.Lined :=
  ⟨fun i o e => (by simp [World.empty] at e), fun e he => by simp [World.empty] at he⟩

theorem World.run_lined {ops : List JOp} (h : ∀ op ∈ ops, Spec.JOp.FewLines op) {w : World}
    (e : World.run ops = .ok w) : w.Lined := by
  have : Post (fun w => w.Lined) (World.run ops) := World.Lined.runFrom World.empty_lined h
  rw [e] at this
  exact this

end WS
