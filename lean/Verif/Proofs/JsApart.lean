import Verif.Proofs.JsLog
/-! # When no two `RawSource`s have the same value, no two objects share a wasm object -/

namespace WS
open Spec

/-- Objects have their own wasm objects; `seen` are the values of the `RawSource`s. -/
structure World.Apart (seen : List Str) (w : World) : Prop where
  abs : ∃ A, Abs A w.heap
  nodup : (w.objs.map JObj.ptr).Nodup
  lt : ∀ p ∈ w.objs.map JObj.ptr, p < w.heap.length
  raws : ∀ v p, w.raws.lookup v = some p → v ∈ seen
  boots : ∀ x ∈ w.boots, x.1 < w.strs.array.length

variable {seen : List Str}

theorem World.Apart.same {w w' : World} (h : w.Apart seen) (s : w.Same w') : w'.Apart seen := by
  obtain ⟨r, hr⟩ := s.strs
  refine ⟨s.heap ▸ h.abs, s.objs ▸ h.nodup, s.objs ▸ s.heap ▸ h.lt, s.raws ▸ h.raws, fun x hx => ?_⟩
  rw [s.boots] at hx
  have := h.boots x hx
  rw [hr, List.length_append]
  omega

theorem Op.step_length {A A' : AHeap} {op : Op} (e : op.step A = .ok A') : A.length ≤ A'.length := by
  cases op with
  | newPrefix p c => simp only [Op.step] at e; split at e <;> cases e; simp
  | newReplace c => simp only [Op.step] at e; split at e <;> cases e; simp
  | add i item =>
    simp only [Op.step, aAdd] at e
    repeat' split at e
    all_goals cases e
    all_goals simp
  | replace i a b t o o' =>
    simp only [Op.step, aCall] at e
    repeat' split at e
    all_goals cases e
    all_goals simp
  | insert i a t o =>
    simp only [Op.step, aCall] at e
    repeat' split at e
    all_goals cases e
    all_goals simp
  | _ => cases e; simp

/-- Constructors of wasm objects. -/
def Op.isNew : Op → Bool
  | .newRaw _ | .newOriginal .. | .newL2l .. | .newSms .. | .newPrefix .. | .newReplace _ | .newConcat => true
  | _ => false

theorem Op.step_new {A A' : AHeap} {op : Op} (hn : op.isNew = true) (e : op.step A = .ok A') :
    A'.length = A.length + 1 := by
  cases op with
  | newPrefix p c => simp only [Op.step] at e; split at e <;> cases e; simp
  | newReplace c => simp only [Op.step] at e; split at e <;> cases e; simp
  | newRaw | newOriginal | newL2l | newSms | newConcat => cases e; simp
  | _ => cases hn

theorem World.call_apart {w : World} (W : w.Apart seen) (op : Op) :
    Post (fun p => p.2.Apart seen ∧ p.2.objs = w.objs) (w.call op) := by
  simp only [World.call]
  cases e : op.run w.heap with
  | error x => trivial
  | ok p =>
    obtain ⟨A, hA⟩ := W.abs
    obtain ⟨A', h1, h2⟩ := Op.run_abs hA op e
    refine ⟨⟨⟨A', h2⟩, W.nodup, fun q hq => ?_, W.raws, W.boots⟩, rfl⟩
    have h3 := W.lt q hq
    have h4 := Op.step_length h1
    have h5 := hA.1
    have h6 := h2.1
    show q < p.2.length
    omega

theorem World.create_apart {w : World} (W : w.Apart seen) {op : Op} (hn : op.isNew = true) (k : JKind) :
    Post (fun w' => w'.Apart seen ∧ w'.raws = w.raws ∧ w'.boots = w.boots ∧ w'.strs = w.strs) (w.create op k) := by
  simp only [World.create, World.call]
  cases e : op.run w.heap with
  | error x => trivial
  | ok p =>
    obtain ⟨A, hA⟩ := W.abs
    obtain ⟨A', h1, h2⟩ := Op.run_abs hA op e
    have h4 := Op.step_new hn h1
    have h5 := hA.1
    have h6 := h2.1
    refine ⟨⟨⟨A', h2⟩, ?_, ?_, W.raws, W.boots⟩, rfl, rfl, rfl⟩
    · simp only [List.map_append, List.map_cons, List.map_nil]
      rw [List.nodup_append]
      refine ⟨W.nodup, by simp, fun a ha b hb hab => ?_⟩
      have h3 := W.lt a ha
      simp only [List.mem_cons, List.not_mem_nil, or_false] at hb
      omega
    · intro q hq
      simp only [List.map_append, List.map_cons, List.map_nil, List.mem_append, List.mem_cons,
        List.not_mem_nil, or_false] at hq
      show q < p.2.length
      rcases hq with hq | rfl
      · have := W.lt q hq; omega
      · omega

theorem World.addItem_apart {w : World} (W : w.Apart seen) (j : Nat) (i : JSrc) :
    Post (fun w' => w'.Apart seen) (w.addItem j i) := by
  simp only [World.addItem]
  split
  · rename_i ptr cs ho
    refine Post.bind (P := fun _ => True) (by cases w.src i <;> trivial) fun s _ => ?_
    refine (World.call_apart W _).map fun p hp => ?_
    have hmap : (w.objs.set j ⟨ptr, .concat (cs ++ [i])⟩).map JObj.ptr = w.objs.map JObj.ptr := by
      rw [List.map_set]
      refine List.ext_getElem? fun k => ?_
      rw [List.getElem?_set]
      split
      · rename_i hjk
        subst hjk
        rw [List.getElem?_map, ho]
        simp [(List.getElem?_eq_some_iff.1 ho).1]
      · rfl
    refine ⟨hp.1.abs, ?_, ?_, hp.1.raws, hp.1.boots⟩
    · rw [hmap]; exact W.nodup
    · intro q hq
      rw [hmap] at hq
      exact hp.1.lt q (by rw [hp.2]; exact hq)
  · trivial

theorem World.addItems_apart {j : Nat} : ∀ {is : List JSrc} {w : World}, w.Apart seen →
    Post (fun w' => w'.Apart seen) (w.addItems j is)
  | [], _, W => W
  | _ :: _, _, W => (World.addItem_apart W j _).bind fun _ h => World.addItems_apart h

theorem World.readSource_apart {w : World} (W : w.Apart seen) (j : Nat) :
    Post (fun p => p.2.Apart seen) (w.readSource j) := by
  simp only [World.readSource]
  split
  · trivial
  · split
    · exact W
    · refine (World.call_apart W _).bind fun p hp => ?_
      split
      · exact hp.1
      · trivial

theorem World.hashEach_apart {f : World → Nat → Except JErr (List Str × World)}
    (hf : ∀ w j, w.Apart seen → Post (fun p => p.2.Apart seen) (f w j)) :
    ∀ {cs : List JSrc} {w : World}, w.Apart seen → Post (fun p => p.2.Apart seen) (World.hashEach f w cs)
  | [], _, W => W
  | .str s :: cs, w, W => by
    simp only [World.hashEach]
    exact (World.hashEach_apart hf W).map fun _ h => h
  | .obj j :: cs, w, W => by
    simp only [World.hashEach]
    exact (hf w j W).bind fun p hp => (World.hashEach_apart hf hp).map fun _ h => h

theorem World.hashObj_apart (n : Nat) : ∀ (w : World) (j : Nat), w.Apart seen →
    Post (fun p => p.2.Apart seen) (World.hashObj n w j) := by
  induction n with
  | zero => intro w j _; trivial
  | succ n ih =>
    intro w j W
    simp only [World.hashObj]
    split
    · trivial
    · split
      · exact W
      · exact W
      · exact W
      · exact W
      · exact (World.hashEach_apart ih W).map fun _ h => h
      · exact (World.readSource_apart W j).map fun _ h => h
      · exact World.hashEach_apart ih W

theorem World.Apart.more {w : World} (W : w.Apart seen) (v : Str) : w.Apart (v :: seen) :=
  ⟨W.abs, W.nodup, W.lt, fun u p h => by simp [W.raws u p h], W.boots⟩

theorem World.newOriginal_apart {w : World} (W : w.Apart seen) (v n : Str) :
    Post (fun w' => w'.Apart seen) (w.newOriginal v n) := by
  simp only [World.newOriginal]
  have s1 := w.internNew_same (some v)
  have s2 := (w.internNew (some v)).2.intern_same (some n)
  have W2 := W.same (s1.trans s2)
  generalize hp : w.internNew (some v) = p at *
  generalize hq : p.2.intern (some n) = q at *
  split
  · split
    · rename_i ptr hb
      exfalso
      have hmem := lookup_pair_mem hb
      rw [s2.boots, s1.boots] at hmem
      have := W.boots _ hmem
      rw [← hp] at this
      simp [World.internNew, StrTable.addUnchecked] at this
    · refine (World.create_apart W2 (op := .newOriginal v _ _) rfl _).map fun w' h => ?_
      refine ⟨h.1.abs, h.1.nodup, h.1.lt, h.1.raws, fun x hx => ?_⟩
      rcases List.mem_cons.1 hx with rfl | hx
      · obtain ⟨r, hr⟩ := s2.strs
        show p.1.toNat < w'.strs.array.length
        rw [h.2.2.2, hr, ← hp]
        simp [World.internNew, StrTable.addUnchecked]
      · exact h.1.boots x hx
  · exact Post.imp (World.create_apart W2 (op := .newOriginal v _ _) rfl _) fun _ h => h.1

theorem World.newSms_apart {w : World} (W : w.Apart seen) (v n : Str) (m : MapArg) (o : Option Str)
    (i : Option MapArg) : Post (fun w' => w'.Apart seen) (w.newSms v n m o i) := by
  cases hr : w.newSms v n m o i with
  | error e => trivial
  | ok w' =>
    simp only [World.newSms, Except.bind_ok_iff] at hr
    obtain ⟨m', h1, i', h2, h3⟩ := hr
    have s1 := World.give_same h1
    have s2 : m'.2.Same i'.2 := by
      have key : ∀ u : World, m'.2.Same u → u.giveInner i = .ok i' → m'.2.Same i'.2 :=
        fun u hu hi => hu.trans (World.giveInner_same hi)
      cases ht : truthy o with
      | none => rw [ht] at h2; exact key _ (.rfl' _) h2
      | some s => rw [ht] at h2; exact key _ (m'.2.internNew_same _) h2
    have s0 := ((w.internNew_same (some v)).trans ((w.internNew (some v)).2.intern_same (some n))).trans
      (s1.trans s2)
    have key : ∀ x y z, i'.2.create (.newSms v x y m'.1 z i'.1) (.sms v (truthy o)) = .ok w' → w'.Apart seen := by
      intro x y z h
      have := World.create_apart (W.same s0) (op := .newSms v x y m'.1 z i'.1) rfl (.sms v (truthy o))
      rw [h] at this
      exact this.1
    exact key _ _ _ h3

/-- A statement that does not make a second `RawSource` of the same value. -/
theorem JOp.run_apart {w : World} (W : w.Apart seen) (op : JOp) (h : ∀ v, op = .newRaw v → v ∉ seen) :
    Post (fun p => p.2.Apart (match op with | .newRaw v => v :: seen | _ => seen)) (op.run w) := by
  cases op with
  | newRaw v =>
    simp only [JOp.run]
    refine Post.map ?_ fun _ h => h
    simp only [World.newRaw]
    split
    · rename_i p hp
      exact absurd (W.raws v p hp) (h v rfl)
    · refine (World.create_apart W (op := .newRaw v) rfl _).map fun w' h => ?_
      refine ⟨h.1.abs, h.1.nodup, h.1.lt, fun u p hu => ?_, h.1.boots⟩
      simp only [List.lookup_cons] at hu
      split at hu
      · rename_i huv
        have : u = v := by simpa using huv
        simp [this]
      · simp [h.1.raws u p hu]
  | newOriginal v n => exact (World.newOriginal_apart W v n).map fun _ h => h
  | newL2l v n o =>
    simp only [JOp.run]
    refine Post.map ?_ fun _ h => h
    have s := (w.intern_same (some n)).trans ((w.intern (some n)).2.internNew_same (some o))
    exact Post.imp (World.create_apart (W.same s) (op := .newL2l v _ _) rfl _) fun _ h => h.1
  | newSms v n m o i => exact (World.newSms_apart W v n m o i).map fun _ h => h
  | newPrefix p c =>
    simp only [JOp.run]
    refine Post.bind (P := fun _ => True) (by cases w.src c <;> trivial) fun s _ => ?_
    exact (World.create_apart W (op := .newPrefix p s) rfl _).map fun _ h => h.1
  | newReplace c =>
    simp only [JOp.run]
    refine Post.bind (P := fun _ => True) (by cases w.src c <;> trivial) fun s _ => ?_
    exact (World.create_apart W (op := .newReplace s) rfl _).map fun _ h => h.1
  | newConcat items =>
    simp only [JOp.run]
    exact (World.create_apart W (op := .newConcat) rfl _).bind fun w1 h =>
      (World.addItems_apart h.1).map fun _ h' => h'
  | add j item => exact (World.addItem_apart W j item).map fun _ h => h
  | replace j a b t =>
    simp only [JOp.run]
    split
    · exact (World.call_apart W (.replace _ _ _ _ _ _)).map fun _ h => h.1
    · trivial
  | insert j a t =>
    simp only [JOp.run]
    split
    · exact (World.call_apart W (.insert _ _ _ _)).map fun _ h => h.1
    · trivial
  | source j => exact (World.readSource_apart W j).map fun _ h => h
  | size j =>
    simp only [JOp.run]
    refine Post.map ?_ fun _ h => h
    simp only [World.readSize]
    split
    · trivial
    · split
      · exact W
      · refine (World.call_apart W (.size _)).bind fun p hp => ?_
        split
        · exact hp.1
        · trivial
  | sourceAndMap j c m =>
    simp only [JOp.run, World.emit]
    split
    · trivial
    · split
      · exact W
      · split
        · refine (World.call_apart W (.node _ _ _)).bind fun p hp => ?_
          split
          · exact ⟨hp.1.abs, hp.1.nodup, hp.1.lt, hp.1.raws, hp.1.boots⟩
          · trivial
        · refine (World.call_apart W (.listMap _ _ _)).bind fun p hp => ?_
          split
          · exact ⟨hp.1.abs, hp.1.nodup, hp.1.lt, hp.1.raws, hp.1.boots⟩
          · trivial
  | hash j => exact (World.hashObj_apart _ w j W).map fun _ h => h
  | get k f =>
    simp only [JOp.run]
    split
    · trivial
    · exact Post.map (Post.any _) fun _ _ => ⟨W.abs, W.nodup, W.lt, W.raws, W.boots⟩
  | set k a =>
    simp only [JOp.run]
    split
    · trivial
    · exact ⟨W.abs, W.nodup, W.lt, W.raws, W.boots⟩

end WS
