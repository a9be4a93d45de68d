import Verif.Proofs.JsApart
/-! # Which objects share a wasm object -/

namespace WS
open Spec

/-- What matters of an object: its class, and the value it keeps. -/
inductive JTag where
  | raw (v : Str)
  | leaf (v : Str)
  | replace
  | other
  deriving DecidableEq

def JKind.tag : JKind → JTag
  | .raw v => .raw v
  | .original v | .l2l v _ | .sms v _ => .leaf v
  | .replace _ => .replace
  | _ => .other

/-- Of the object that a statement makes. -/
def JOp.tag : JOp → List JTag
  | .newRaw v => [.raw v]
  | .newReplace _ => [.replace]
  | .newOriginal v _ | .newL2l v _ _ | .newSms v _ _ _ _ => [.leaf v]
  | .newPrefix .. | .newConcat _ => [.other]
  | _ => []

/-- Only `RawSource`s of one value share a wasm object. `ps`: pointers of the first objects. -/
structure World.Held (tags : List JTag) (ps : List Nat) (w : World) : Prop where
  abs : ∃ A, Abs A w.heap
  tags : w.objs.map (fun o => o.kind.tag) = tags
  ptrs : ∃ r, w.objs.map JObj.ptr = ps ++ r
  share : ∀ (i j : Nat) (o o' : JObj), w.objs[i]? = some o → w.objs[j]? = some o' → o.ptr = o'.ptr →
    i = j ∨ ∃ v, o.kind.tag = .raw v ∧ o'.kind.tag = .raw v
  lt : ∀ o ∈ w.objs, o.ptr < w.heap.length
  raws : ∀ v p, w.raws.lookup v = some p → ∃ o ∈ w.objs, o.ptr = p ∧ o.kind.tag = .raw v
  boots : ∀ x ∈ w.boots, x.1 < w.strs.array.length

variable {tags : List JTag} {ps : List Nat}

theorem World.Held.same {w w' : World} (h : w.Held tags ps) (s : w.Same w') : w'.Held tags ps := by
  obtain ⟨r, hr⟩ := s.strs
  refine ⟨s.heap ▸ h.abs, s.objs ▸ h.tags, s.objs ▸ h.ptrs, s.objs ▸ h.share, s.objs ▸ s.heap ▸ h.lt,
    s.raws ▸ s.objs ▸ h.raws, fun x hx => ?_⟩
  rw [s.boots] at hx
  have := h.boots x hx
  rw [hr, List.length_append]
  omega

theorem World.call_held {w : World} (W : w.Held tags ps) (op : Op) :
    Post (fun p => p.2.Held tags ps ∧ p.2.objs = w.objs) (w.call op) := by
  simp only [World.call]
  cases e : op.run w.heap with
  | error x => trivial
  | ok p =>
    obtain ⟨A, hA⟩ := W.abs
    obtain ⟨A', h1, h2⟩ := Op.run_abs hA op e
    refine ⟨⟨⟨A', h2⟩, W.tags, W.ptrs, W.share, fun o ho => ?_, W.raws, W.boots⟩, rfl⟩
    have h3 := W.lt o ho
    have h4 := Op.step_length h1
    have h5 := hA.1
    have h6 := h2.1
    show o.ptr < p.2.length
    omega

/-- A new object. -/
theorem World.Held.push {w w' : World} (W : w.Held tags ps) {o : JObj} (ho : w'.objs = w.objs ++ [o])
    (hA : ∃ A, Abs A w'.heap) (hlen : w.heap.length ≤ w'.heap.length) (hp : o.ptr < w'.heap.length)
    (hs : ∀ o' ∈ w.objs, o'.ptr = o.ptr → ∃ v, o'.kind.tag = .raw v ∧ o.kind.tag = .raw v)
    (hr : ∀ v p, w'.raws.lookup v = some p → ∃ o ∈ w'.objs, o.ptr = p ∧ o.kind.tag = .raw v)
    (hb : ∀ x ∈ w'.boots, x.1 < w'.strs.array.length) : w'.Held (tags ++ [o.kind.tag]) ps := by
  obtain ⟨r, hr'⟩ := W.ptrs
  refine ⟨hA, by rw [ho, List.map_append, W.tags]; rfl, ⟨r ++ [o.ptr], by rw [ho, List.map_append, hr']; simp⟩,
    ?_, ?_, hr, hb⟩
  · intro i j a b ha hb' hab
    rw [ho] at ha hb'
    have cases : ∀ {k : Nat} {x : JObj}, (w.objs ++ [o])[k]? = some x →
        w.objs[k]? = some x ∨ k = w.objs.length ∧ x = o := by
      intro k x hx
      by_cases hk : k < w.objs.length
      · rw [List.getElem?_append_left hk] at hx; exact .inl hx
      · rw [List.getElem?_append_right (by omega)] at hx
        have hk' := (List.getElem?_eq_some_iff.1 hx).1
        simp only [List.length_cons, List.length_nil] at hk'
        have h0 : k - w.objs.length = 0 := by omega
        rw [h0] at hx
        simp only [List.getElem?_cons_zero, Option.some.injEq] at hx
        exact .inr ⟨by omega, hx.symm⟩
    rcases cases ha with ha1 | ⟨hi, hao⟩ <;> rcases cases hb' with hb1 | ⟨hj, hbo⟩
    · exact W.share i j a b ha1 hb1 hab
    · subst hbo
      obtain ⟨v, h1, h2⟩ := hs a (List.mem_of_getElem? ha1) hab
      exact .inr ⟨v, h1, h2⟩
    · subst hao
      obtain ⟨v, h1, h2⟩ := hs b (List.mem_of_getElem? hb1) hab.symm
      exact .inr ⟨v, h2, h1⟩
    · exact .inl (hi.trans hj.symm)
  · intro x hx
    rw [ho] at hx
    rcases List.mem_append.1 hx with hx | hx
    · have := W.lt x hx; omega
    · cases List.mem_singleton.1 hx; exact hp

theorem World.create_held {w : World} (W : w.Held tags ps) {op : Op} (hn : op.isNew = true) (k : JKind) :
    Post (fun w' => w'.Held (tags ++ [k.tag]) ps ∧ w'.raws = w.raws ∧ w'.boots = w.boots ∧ w'.strs = w.strs ∧
      w'.objs = w.objs ++ [⟨w.heap.length, k⟩]) (w.create op k) := by
  simp only [World.create, World.call]
  cases e : op.run w.heap with
  | error x => trivial
  | ok p =>
    obtain ⟨A, hA⟩ := W.abs
    obtain ⟨A', h1, h2⟩ := Op.run_abs hA op e
    have h4 := Op.step_new hn h1
    have h5 := hA.1
    have h6 := h2.1
    refine ⟨W.push (o := ⟨w.heap.length, k⟩) rfl ⟨A', h2⟩ (by show w.heap.length ≤ p.2.length; omega)
      (by show w.heap.length < p.2.length; omega) ?_ ?_ W.boots, rfl, rfl, rfl, rfl⟩
    · intro o' ho' he
      have := W.lt o' ho'
      dsimp only at he
      omega
    · intro v q hq
      obtain ⟨o, h7, h8⟩ := W.raws v q hq
      exact ⟨o, List.mem_append_left _ h7, h8⟩

theorem World.addItem_held {w : World} (W : w.Held tags ps) (j : Nat) (i : JSrc) :
    Post (fun w' => w'.Held tags ps ∧ w'.objs.length = w.objs.length) (w.addItem j i) := by
  simp only [World.addItem]
  split
  · rename_i ptr cs ho
    refine Post.bind (P := fun _ => True) (by cases w.src i <;> trivial) fun s _ => ?_
    refine (World.call_held W _).map fun p hp => ?_
    have hlt := (List.getElem?_eq_some_iff.1 ho).1
    have hmap : ∀ {β : Type} (f : JObj → β), f ⟨ptr, .concat (cs ++ [i])⟩ = f ⟨ptr, .concat cs⟩ →
        (w.objs.set j ⟨ptr, .concat (cs ++ [i])⟩).map f = w.objs.map f := by
      intro β f hf
      rw [List.map_set, hf]
      refine List.ext_getElem? fun k => ?_
      rw [List.getElem?_set]
      split
      · rename_i hjk
        subst hjk
        rw [List.getElem?_map, ho]
        simp [hlt]
      · rfl
    have hget : ∀ {k : Nat} {x : JObj}, (w.objs.set j ⟨ptr, .concat (cs ++ [i])⟩)[k]? = some x →
        ∃ y, w.objs[k]? = some y ∧ y.ptr = x.ptr ∧ y.kind.tag = x.kind.tag := by
      intro k x hx
      rw [List.getElem?_set] at hx
      split at hx
      · rename_i hjk
        subst hjk
        cases hx
        exact ⟨_, ho, rfl, rfl⟩
      · exact ⟨x, hx, rfl, rfl⟩
    refine ⟨⟨hp.1.abs, ?_, ?_, ?_, ?_, ?_, hp.1.boots⟩, by simp⟩
    · rw [hmap (fun o => o.kind.tag) rfl]; exact W.tags
    · rw [hmap JObj.ptr rfl]; exact W.ptrs
    · intro a b x y hx hy hxy
      obtain ⟨x', h1, h2, h3⟩ := hget hx
      obtain ⟨y', h4, h5, h6⟩ := hget hy
      rw [← h3, ← h6]
      exact W.share a b x' y' h1 h4 (by rw [h2, h5]; exact hxy)
    · intro x hx
      obtain ⟨k, hk⟩ := List.getElem?_of_mem hx
      obtain ⟨y, h1, h2, -⟩ := hget hk
      rw [← h2]
      exact hp.1.lt y (by rw [hp.2]; exact List.mem_of_getElem? h1)
    · intro v q hq
      obtain ⟨o, h1, h2, h3⟩ := hp.1.raws v q hq
      rw [hp.2] at h1
      obtain ⟨k, hk⟩ := List.getElem?_of_mem h1
      refine ⟨o, ?_, h2, h3⟩
      have hne : j ≠ k := by
        rintro rfl
        rw [ho] at hk; cases hk
        cases h3
      refine List.mem_of_getElem? (i := k) ?_
      show (w.objs.set j _)[k]? = some o
      rw [List.getElem?_set_ne hne]; exact hk
  · trivial

theorem World.addItems_held {j : Nat} : ∀ {is : List JSrc} {w : World}, w.Held tags ps →
    Post (fun w' => w'.Held tags ps) (w.addItems j is)
  | [], _, W => W
  | _ :: _, _, W => (World.addItem_held W j _).bind fun _ h => World.addItems_held h.1

theorem World.readSource_held {w : World} (W : w.Held tags ps) (j : Nat) :
    Post (fun p => p.2.Held tags ps) (w.readSource j) := by
  simp only [World.readSource]
  split
  · trivial
  · split
    · exact W
    · refine (World.call_held W _).bind fun p hp => ?_
      split
      · exact hp.1
      · trivial

theorem World.hashEach_held {f : World → Nat → Except JErr (List Str × World)}
    (hf : ∀ w j, w.Held tags ps → Post (fun p => p.2.Held tags ps) (f w j)) :
    ∀ {cs : List JSrc} {w : World}, w.Held tags ps → Post (fun p => p.2.Held tags ps) (World.hashEach f w cs)
  | [], _, W => W
  | .str s :: cs, w, W => by
    simp only [World.hashEach]
    exact (World.hashEach_held hf W).map fun _ h => h
  | .obj j :: cs, w, W => by
    simp only [World.hashEach]
    exact (hf w j W).bind fun p hp => (World.hashEach_held hf hp).map fun _ h => h

theorem World.hashObj_held (n : Nat) : ∀ (w : World) (j : Nat), w.Held tags ps →
    Post (fun p => p.2.Held tags ps) (World.hashObj n w j) := by
  induction n with
  | zero => intro w j _; trivial
  | succ n ih =>
    intro w j W
    simp only [World.hashObj]
    split
    · trivial
    · split
      · exact W
      · exact W
      · exact W
      · exact W
      · exact (World.hashEach_held ih W).map fun _ h => h
      · exact (World.readSource_held W j).map fun _ h => h
      · exact World.hashEach_held ih W

theorem World.newOriginal_held {w : World} (W : w.Held tags ps) (v n : Str) :
    Post (fun w' => w'.Held (tags ++ [.leaf v]) ps) (w.newOriginal v n) := by
  simp only [World.newOriginal]
  have s1 := w.internNew_same (some v)
  have s2 := (w.internNew (some v)).2.intern_same (some n)
  have W2 := W.same (s1.trans s2)
  generalize hp : w.internNew (some v) = p at *
  generalize hq : p.2.intern (some n) = q at *
  split
  · split
    · rename_i ptr hb
      exfalso
      have hmem := lookup_pair_mem hb
      rw [s2.boots, s1.boots] at hmem
      have := W.boots _ hmem
      rw [← hp] at this
      simp [World.internNew, StrTable.addUnchecked] at this
    · refine (World.create_held W2 (op := .newOriginal v _ _) rfl _).map fun w' h => ?_
      refine ⟨h.1.abs, h.1.tags, h.1.ptrs, h.1.share, h.1.lt, h.1.raws, fun x hx => ?_⟩
      rcases List.mem_cons.1 hx with rfl | hx
      · obtain ⟨r, hr⟩ := s2.strs
        show p.1.toNat < w'.strs.array.length
        rw [h.2.2.2.1, hr, ← hp]
        simp [World.internNew, StrTable.addUnchecked]
      · exact h.1.boots x hx
  · exact Post.imp (World.create_held W2 (op := .newOriginal v _ _) rfl _) fun _ h => h.1

theorem World.newSms_held {w : World} (W : w.Held tags ps) (v n : Str) (m : MapArg) (o : Option Str)
    (i : Option MapArg) : Post (fun w' => w'.Held (tags ++ [.leaf v]) ps) (w.newSms v n m o i) := by
  cases hr : w.newSms v n m o i with
  | error e => trivial
  | ok w' =>
    simp only [World.newSms, Except.bind_ok_iff] at hr
    obtain ⟨m', h1, i', h2, h3⟩ := hr
    have s1 := World.give_same h1
    have s2 : m'.2.Same i'.2 := by
      have key : ∀ u : World, m'.2.Same u → u.giveInner i = .ok i' → m'.2.Same i'.2 :=
        fun u hu hi => hu.trans (World.giveInner_same hi)
      cases ht : truthy o with
      | none => rw [ht] at h2; exact key _ (.rfl' _) h2
      | some s => rw [ht] at h2; exact key _ (m'.2.internNew_same _) h2
    have s0 := ((w.internNew_same (some v)).trans ((w.internNew (some v)).2.intern_same (some n))).trans
      (s1.trans s2)
    have key : ∀ x y z, i'.2.create (.newSms v x y m'.1 z i'.1) (.sms v (truthy o)) = .ok w' →
        w'.Held (tags ++ [.leaf v]) ps := by
      intro x y z h
      have := World.create_held (W.same s0) (op := .newSms v x y m'.1 z i'.1) rfl (.sms v (truthy o))
      rw [h] at this
      exact this.1
    exact key _ _ _ h3

/-- A statement. -/
theorem JOp.run_held {w : World} (W : w.Held tags ps) (op : JOp) :
    Post (fun p => p.2.Held (tags ++ op.tag) ps) (op.run w) := by
  have W0 : ∀ {w : World}, w.Held tags ps → w.Held (tags ++ []) ps := fun h => by simpa using h
  cases op with
  | newRaw v =>
    simp only [JOp.run]
    refine Post.map ?_ fun _ h => h
    simp only [World.newRaw]
    split
    · rename_i p hp
      obtain ⟨o, h1, h2, h3⟩ := W.raws v p hp
      refine W.push (o := ⟨p, .raw v⟩) rfl W.abs (Nat.le_refl _) (h2 ▸ W.lt o h1) ?_ ?_ W.boots
      · intro o' ho' he
        obtain ⟨k, hk⟩ := List.getElem?_of_mem ho'
        obtain ⟨k', hk'⟩ := List.getElem?_of_mem h1
        refine ⟨v, ?_, rfl⟩
        rcases W.share k k' o' o hk hk' (by rw [h2]; exact he) with rfl | ⟨u, h4, h5⟩
        · rw [hk] at hk'; cases hk'; exact h3
        · rw [h3] at h5; cases h5; exact h4
      · intro u q hq
        obtain ⟨x, h4, h5⟩ := W.raws u q hq
        exact ⟨x, List.mem_append_left _ h4, h5⟩
    · refine (World.create_held W (op := .newRaw v) rfl _).map fun w' h => ?_
      refine ⟨h.1.abs, h.1.tags, h.1.ptrs, h.1.share, h.1.lt, fun u p hu => ?_, h.1.boots⟩
      simp only [List.lookup_cons] at hu
      split at hu
      · rename_i huv
        have huv : u = v := by simpa using huv
        cases hu
        subst huv
        exact ⟨⟨w.heap.length, .raw u⟩, by show _ ∈ w'.objs; rw [h.2.2.2.2]; simp, rfl, rfl⟩
      · exact h.1.raws u p hu
  | newOriginal v n => exact (World.newOriginal_held W v n).map fun _ h => h
  | newL2l v n o =>
    simp only [JOp.run]
    refine Post.map ?_ fun _ h => h
    have s := (w.intern_same (some n)).trans ((w.intern (some n)).2.internNew_same (some o))
    exact Post.imp (World.create_held (W.same s) (op := .newL2l v _ _) rfl _) fun _ h => h.1
  | newSms v n m o i => exact (World.newSms_held W v n m o i).map fun _ h => h
  | newPrefix p c =>
    simp only [JOp.run]
    refine Post.bind (P := fun _ => True) (by cases w.src c <;> trivial) fun s _ => ?_
    exact (World.create_held W (op := .newPrefix p s) rfl _).map fun _ h => h.1
  | newReplace c =>
    simp only [JOp.run]
    refine Post.bind (P := fun _ => True) (by cases w.src c <;> trivial) fun s _ => ?_
    exact (World.create_held W (op := .newReplace s) rfl _).map fun _ h => h.1
  | newConcat items =>
    simp only [JOp.run]
    exact (World.create_held W (op := .newConcat) rfl _).bind fun w1 h =>
      (World.addItems_held h.1).map fun _ h' => h'
  | add j item => exact (World.addItem_held W j item).map fun _ h => W0 h.1
  | replace j a b t =>
    simp only [JOp.run]
    split
    · exact (World.call_held W (.replace _ _ _ _ _ _)).map fun _ h => W0 h.1
    · trivial
  | insert j a t =>
    simp only [JOp.run]
    split
    · exact (World.call_held W (.insert _ _ _ _)).map fun _ h => W0 h.1
    · trivial
  | source j => exact (World.readSource_held W j).map fun _ h => W0 h
  | size j =>
    simp only [JOp.run]
    refine Post.map ?_ fun _ h => W0 h
    simp only [World.readSize]
    split
    · trivial
    · split
      · exact W
      · refine (World.call_held W (.size _)).bind fun p hp => ?_
        split
        · exact hp.1
        · trivial
  | sourceAndMap j c m =>
    simp only [JOp.run, World.emit]
    split
    · trivial
    · split
      · exact W0 W
      · split
        · refine (World.call_held W (.node _ _ _)).bind fun p hp => ?_
          split
          · exact W0 ⟨hp.1.abs, hp.1.tags, hp.1.ptrs, hp.1.share, hp.1.lt, hp.1.raws, hp.1.boots⟩
          · trivial
        · refine (World.call_held W (.listMap _ _ _)).bind fun p hp => ?_
          split
          · exact W0 ⟨hp.1.abs, hp.1.tags, hp.1.ptrs, hp.1.share, hp.1.lt, hp.1.raws, hp.1.boots⟩
          · trivial
  | hash j => exact (World.hashObj_held _ w j W).map fun _ h => W0 h
  | get k f =>
    simp only [JOp.run]
    split
    · trivial
    · exact Post.map (Post.any _) fun _ _ => W0 ⟨W.abs, W.tags, W.ptrs, W.share, W.lt, W.raws, W.boots⟩
  | set k a =>
    simp only [JOp.run]
    split
    · trivial
    · exact W0 ⟨W.abs, W.tags, W.ptrs, W.share, W.lt, W.raws, W.boots⟩

end WS
