import Verif.Proofs.JsEmitted
import Verif.Proofs.JsLined
/-! # The wasm objects of a program are what the logged calls make -/

namespace WS
open Spec

/-- The wasm calls between two states. -/
def World.Steps (Q : Op → Prop) (w w' : World) : Prop :=
  ∃ l, w'.log = w.log ++ l ∧ WS.runFrom w.heap l = .ok w'.heap ∧ ∀ o ∈ l, Q o

theorem runFrom_steps_append : ∀ {a b : List Op} {h h' : Heap}, runFrom h a = .ok h' →
    runFrom h (a ++ b) = runFrom h' b
  | [], _, _, _, e => by cases e; rfl
  | o :: a, b, h, h', e => by
    simp only [runFrom, List.cons_append] at e ⊢
    split at e
    · cases e
    · exact runFrom_steps_append e

theorem Post.imp {α : Type} {P Q : α → Prop} {x : Except JErr α} (h : Post P x) (hq : ∀ a, P a → Q a) :
    Post Q x := by
  cases x with
  | error e => trivial
  | ok a => exact hq a h

variable {Q : Op → Prop}

theorem World.Steps.none {w w' : World} (h : w'.heap = w.heap) (hl : w'.log = w.log) : w.Steps Q w' :=
  ⟨[], by simp [hl], by rw [h]; rfl, by simp⟩

theorem World.Steps.trans {a b c : World} (h : a.Steps Q b) (h' : b.Steps Q c) : a.Steps Q c := by
  obtain ⟨l, e1, e2, e3⟩ := h
  obtain ⟨l', f1, f2, f3⟩ := h'
  refine ⟨l ++ l', by rw [f1, e1, List.append_assoc], by rw [runFrom_steps_append e2]; exact f2, fun o ho => ?_⟩
  exact (List.mem_append.1 ho).elim (e3 o) (f3 o)

theorem World.Steps.before {a b c : World} (h : b.Steps Q c) (hh : b.heap = a.heap) (hl : b.log = a.log) :
    a.Steps Q c := World.Steps.trans (.none hh hl) h

theorem World.Steps.after {a b c : World} (h : a.Steps Q b) (hh : c.heap = b.heap) (hl : c.log = b.log) :
    a.Steps Q c := h.trans (.none hh hl)

theorem World.call_steps {w : World} {op : Op} (h : Q op) : Post (fun p => w.Steps Q p.2) (w.call op) := by
  simp only [World.call]
  cases e : op.run w.heap with
  | error x => trivial
  | ok p => exact ⟨[op], rfl, by simp [WS.runFrom, e], by simpa using h⟩

theorem World.create_steps {w : World} {op : Op} (h : Q op) (k : JKind) :
    Post (fun w' => w.Steps Q w') (w.create op k) :=
  (World.call_steps h).map fun _ hp => hp.after rfl rfl

variable (hsrc : ∀ i, Q (.source i)) (hadd : ∀ i s, Q (.add i s))

section
include hadd
theorem World.addItem_steps (w : World) (j : Nat) (i : JSrc) :
    Post (fun w' => w.Steps Q w') (w.addItem j i) := by
  simp only [World.addItem]
  split
  · refine Post.bind (P := fun _ => True) (by cases w.src i <;> trivial) fun s _ => ?_
    exact (World.call_steps (hadd _ _)).map fun _ hp => hp.after rfl rfl
  · trivial

theorem World.addItems_steps {j : Nat} : ∀ {is : List JSrc} {w : World},
    Post (fun w' => w.Steps Q w') (w.addItems j is)
  | [], _ => .none rfl rfl
  | i :: is, w => (World.addItem_steps hadd w j i).bind fun _ h =>
      Post.imp (World.addItems_steps (is := is)) fun _ => h.trans
end

theorem World.hashEach_steps {f : World → Nat → Except JErr (List Str × World)}
    (hf : ∀ w j, Post (fun p => w.Steps Q p.2) (f w j)) :
    ∀ {cs : List JSrc} {w : World}, Post (fun p => w.Steps Q p.2) (World.hashEach f w cs)
  | [], _ => .none rfl rfl
  | .str s :: cs, w => by
    simp only [World.hashEach]
    exact (World.hashEach_steps hf).map fun _ h => h
  | .obj j :: cs, w => by
    simp only [World.hashEach]
    exact (hf w j).bind fun p hp => (World.hashEach_steps hf).map fun _ h => hp.trans h

section
include hsrc
theorem World.readSource_steps (w : World) (j : Nat) : Post (fun p => w.Steps Q p.2) (w.readSource j) := by
  simp only [World.readSource]
  split
  · trivial
  · split
    · exact .none rfl rfl
    · refine (World.call_steps (hsrc _)).bind fun p hp => ?_
      split
      · exact hp
      · trivial

theorem World.hashObj_steps (n : Nat) : ∀ (w : World) (j : Nat),
    Post (fun p => w.Steps Q p.2) (World.hashObj n w j) := by
  induction n with
  | zero => intro w j; trivial
  | succ n ih =>
    intro w j
    simp only [World.hashObj]
    split
    · trivial
    · split
      · exact .none rfl rfl
      · exact .none rfl rfl
      · exact .none rfl rfl
      · exact .none rfl rfl
      · exact (World.hashEach_steps ih).map fun _ h => h
      · exact (World.readSource_steps hsrc w j).map fun _ h => h
      · exact World.hashEach_steps ih
end

theorem World.internAll_pos {vs : List JVal} : ∀ {w : World}, ∀ i ∈ (w.internAll vs).1, 0 ≤ i := by
  induction vs with
  | nil => intro w i hi; simp [World.internAll] at hi
  | cons v vs ih =>
    intro w i hi
    rcases List.mem_cons.1 hi with rfl | hi
    · simp [World.intern]
    · exact ih i hi

/-- What is known of the calls made by a statement. -/
def Op.Of (j : JOp) : Op → Prop
  | .newOriginal v n _ => 0 ≤ n ∧ ∃ name, j = .newOriginal v name
  | .newL2l v n _ => 0 ≤ n ∧ ∃ name o, j = .newL2l v name o
  | .newSms v _ n hd _ inner => 0 ≤ n ∧ ∃ name m o i, j = .newSms v name m o i ∧
      ((inner.isSome = i.isSome) ∧ ∀ ss cs ns mp, i = some (.plain ss cs ns mp) → ∃ ih d, inner = some ih ∧
        ih.gen = none ∧ ih.data = some d ∧ ∀ s ∈ d.sources, 0 ≤ s) ∧
      ∀ ss cs ns mp, m = .plain ss cs ns mp → hd.gen = none ∧ ∃ d, hd.data = some d ∧ d.mappings = mp ∧
        ∀ s ∈ d.sources, 0 ≤ s
  | _ => True

theorem World.give_plain {w : World} {a : MapArg} : Post (fun p => ∀ ss cs ns mp, a = .plain ss cs ns mp →
    p.1.gen = none ∧ ∃ d, p.1.data = some d ∧ d.mappings = mp ∧ ∀ s ∈ d.sources, 0 ≤ s) (w.give a) := by
  cases a with
  | plain ss cs ns mp =>
    intro _ _ _ _ e
    cases e
    exact ⟨rfl, _, rfl, rfl, fun s hs => World.internAll_pos s hs⟩
  | emitted k =>
    cases h : w.give (.emitted k) with
    | error e => trivial
    | ok p => intro _ _ _ _ e; cases e

theorem JOp.run_steps (w : World) (op : JOp) : Post (fun p => w.Steps (·.Of op) p.2) (op.run w) := by
  have hsrc : ∀ i, Op.Of op (.source i) := fun _ => trivial
  have hadd : ∀ i s, Op.Of op (.add i s) := fun _ _ => trivial
  cases op with
  | newRaw v =>
    simp only [JOp.run]
    refine Post.map ?_ fun _ h => h
    simp only [World.newRaw]
    split
    · exact .none rfl rfl
    · exact (World.create_steps (op := .newRaw v) trivial _).map fun _ h => h.after rfl rfl
  | newOriginal v n =>
    simp only [JOp.run]
    refine Post.map ?_ fun _ h => h
    have hq : Op.Of (.newOriginal v n) (.newOriginal v ((w.internNew (some v)).2.intern (some n)).1
        (w.internNew (some v)).1) := ⟨by simp [World.intern], n, rfl⟩
    simp only [World.newOriginal]
    split
    · split
      · exact .none rfl rfl
      · exact (World.create_steps hq _).map fun _ h => (World.Steps.before h rfl rfl).after rfl rfl
    · exact Post.imp (World.create_steps hq _) fun _ h => World.Steps.before h rfl rfl
  | newL2l v n o =>
    simp only [JOp.run]
    refine Post.map ?_ fun _ h => h
    exact Post.imp (World.create_steps (op := .newL2l v _ _) ⟨by simp [World.intern], n, o, rfl⟩ _)
      fun _ h => World.Steps.before h rfl rfl
  | newSms v n m o i =>
    simp only [JOp.run]
    refine Post.map ?_ fun _ h => h
    cases hr : w.newSms v n m o i with
    | error e => trivial
    | ok w' =>
      simp only [World.newSms, Except.bind_ok_iff] at hr
      obtain ⟨m', h1, i', h2, h3⟩ := hr
      have s1 := World.give_same h1
      have hp := World.give_plain (w := ((w.internNew (some v)).2.intern (some n)).2) (a := m)
      rw [h1] at hp
      have s2 : m'.2.Same i'.2 ∧ (i'.1.isSome = i.isSome ∧ ∀ ss cs ns mp, i = some (.plain ss cs ns mp) →
          ∃ ih d, i'.1 = some ih ∧ ih.gen = none ∧ ih.data = some d ∧ ∀ s ∈ d.sources, 0 ≤ s) := by
        have key : ∀ u : World, m'.2.Same u → u.giveInner i = .ok i' →
            m'.2.Same i'.2 ∧ (i'.1.isSome = i.isSome ∧ ∀ ss cs ns mp, i = some (.plain ss cs ns mp) →
              ∃ ih d, i'.1 = some ih ∧ ih.gen = none ∧ ih.data = some d ∧ ∀ s ∈ d.sources, 0 ≤ s) := by
          intro u hu hi
          refine ⟨hu.trans (World.giveInner_same hi), ?_⟩
          cases i with
          | none => cases hi; exact ⟨rfl, fun _ _ _ _ e => by cases e⟩
          | some a =>
            simp only [World.giveInner, Except.map_ok_iff] at hi
            obtain ⟨q, hq, rfl⟩ := hi
            refine ⟨rfl, fun ss cs ns mp e => ?_⟩
            cases e
            have hp' := World.give_plain (w := u) (a := .plain ss cs ns mp)
            rw [hq] at hp'
            obtain ⟨h1, d, h2, -, h4⟩ := hp' ss cs ns mp rfl
            exact ⟨_, d, rfl, h1, h2, h4⟩
        cases ht : truthy o with
        | none => rw [ht] at h2; exact key _ (.rfl' _) h2
        | some s => rw [ht] at h2; exact key _ (m'.2.internNew_same _) h2
      have s0 := ((w.internNew_same (some v)).trans ((w.internNew (some v)).2.intern_same (some n))).trans
        (s1.trans s2.1)
      have hpos : 0 ≤ ((w.internNew (some v)).2.intern (some n)).1 := by simp [World.intern]
      have key : ∀ x y, i'.2.create (.newSms v x ((w.internNew (some v)).2.intern (some n)).1 m'.1 y i'.1)
          (.sms v (truthy o)) = .ok w' → i'.2.Steps (·.Of (.newSms v n m o i)) w' := by
        intro x y h
        have := World.create_steps (Q := (·.Of (.newSms v n m o i))) (w := i'.2)
          (op := .newSms v x ((w.internNew (some v)).2.intern (some n)).1 m'.1 y i'.1)
          ⟨hpos, n, m, o, i, rfl, s2.2, hp⟩ (.sms v (truthy o))
        rw [h] at this
        exact this
      exact World.Steps.before (key _ _ h3) s0.heap s0.log
  | newPrefix p c =>
    simp only [JOp.run]
    refine Post.bind (P := fun _ => True) (by cases w.src c <;> trivial) fun s _ => ?_
    exact (World.create_steps (op := .newPrefix p s) trivial _).map fun _ h => h
  | newReplace c =>
    simp only [JOp.run]
    refine Post.bind (P := fun _ => True) (by cases w.src c <;> trivial) fun s _ => ?_
    exact (World.create_steps (op := .newReplace s) trivial _).map fun _ h => h
  | newConcat items =>
    simp only [JOp.run]
    exact (World.create_steps (op := .newConcat) trivial _).bind fun w1 h =>
      (World.addItems_steps hadd).map fun _ h' => h.trans h'
  | add j item => exact (World.addItem_steps hadd w j item).map fun _ h => h
  | replace j a b t =>
    simp only [JOp.run]
    split
    · exact (World.call_steps (op := .replace _ _ _ _ _ _) trivial).map fun _ h => h
    · trivial
  | insert j a t =>
    simp only [JOp.run]
    split
    · exact (World.call_steps (op := .insert _ _ _ _) trivial).map fun _ h => h
    · trivial
  | source j => exact (World.readSource_steps hsrc w j).map fun _ h => h
  | size j =>
    simp only [JOp.run]
    refine Post.map ?_ fun _ h => h
    simp only [World.readSize]
    split
    · trivial
    · split
      · exact .none rfl rfl
      · refine (World.call_steps (Q := (·.Of (.size j))) (op := .size _) trivial).bind fun p hp => ?_
        split
        · exact hp
        · trivial
  | sourceAndMap j c m =>
    simp only [JOp.run, World.emit]
    split
    · trivial
    · split
      · exact .none rfl rfl
      · split
        · refine (World.call_steps (Q := (·.Of (.sourceAndMap j c m))) (op := .node _ _ _) trivial).bind fun p hp => ?_
          split
          · exact hp.after rfl rfl
          · trivial
        · refine (World.call_steps (Q := (·.Of (.sourceAndMap j c m))) (op := .listMap _ _ _) trivial).bind fun p hp => ?_
          split
          · exact hp.after rfl rfl
          · trivial
  | hash j => exact (World.hashObj_steps hsrc _ w j).map fun _ h => h
  | get k f =>
    simp only [JOp.run]
    split
    · trivial
    · exact Post.map (Post.any _) fun _ _ => .none rfl rfl
  | set k a =>
    simp only [JOp.run]
    split
    · trivial
    · exact .none rfl rfl

/-- The state of the wasm side is that after the logged calls, each made by one of the statements. -/
theorem World.runFrom_log : ∀ {ops : List JOp} {w w' : World}, w.runFrom ops = .ok w' →
    ∃ l, w'.log = w.log ++ l ∧ WS.runFrom w.heap l = .ok w'.heap ∧ ∀ o ∈ l, ∃ j ∈ ops, o.Of j
  | [], w, w', e => by cases e; exact ⟨[], by simp, rfl, by simp⟩
  | op :: ops, w, w', e => by
    simp only [World.runFrom, Except.bind_ok_iff] at e
    obtain ⟨p, h1, h2⟩ := e
    have := JOp.run_steps w op
    rw [h1] at this
    obtain ⟨l, e1, e2, e3⟩ := this
    obtain ⟨l', f1, f2, f3⟩ := World.runFrom_log h2
    refine ⟨l ++ l', by rw [f1, e1, List.append_assoc], by rw [runFrom_steps_append e2]; exact f2, fun o ho => ?_⟩
    rcases List.mem_append.1 ho with ho | ho
    · exact ⟨op, by simp, e3 o ho⟩
    · obtain ⟨j, hj, h⟩ := f3 o ho
      exact ⟨j, by simp [hj], h⟩

theorem World.run_log {ops : List JOp} {w : World} (e : World.run ops = .ok w) :
    WS.run w.log = .ok w.heap ∧ ∀ o ∈ w.log, ∃ j ∈ ops, o.Of j := by
  obtain ⟨l, h1, h2, h3⟩ := World.runFrom_log e
  have : w.log = l := by simpa [World.empty] using h1
  rw [this]
  exact ⟨h2, h3⟩

end WS
