import Verif.Proofs.JsEmitted
import Verif.Proofs.JsWithin
/-! # The string table numbers the strings in the order in which a program mentions them -/

namespace WS
open Spec

/-- The strings a map given to a `SourceMapSource` mentions, in order. (For maps given as ordinary
objects.) -/
def _root_.WS.MapArg.mentions : MapArg → List JVal
  | .plain sources _ names _ => sources ++ names
  | .emitted _ => []

/-- The names of files and the other names a statement mentions, in order. -/
def Spec.JOp.mentions : JOp → List JVal
  | .newOriginal _ name => [some name]
  | .newL2l _ name _ => [some name]
  | .newSms _ name map _ inner =>
    some name :: (map.mentions ++ match inner with | some i => i.mentions | none => [])
  | _ => []

/-- The same of a program. -/
def Spec.mentions (ops : List JOp) : List JVal := ops.flatMap Spec.JOp.mentions

/-- The maps given are ordinary objects. -/
def JOp.PlainMaps : JOp → Prop
  | .newSms _ _ map _ inner => (∃ ss cs ns mp, map = .plain ss cs ns mp) ∧
      ∀ i, inner = some i → ∃ ss cs ns mp, i = .plain ss cs ns mp
  | _ => True

/-- The table has the strings of the list, numbered in the order of the list. -/
structure Numbered (t : StrTable JVal) (V : List JVal) : Prop where
  ok : t.Ok
  mem : ∀ v i, t.indexOf v = some i → v ∈ V
  has : ∀ v ∈ V, ∃ i, t.indexOf v = some i
  order : ∀ v v' i i', t.indexOf v = some i → t.indexOf v' = some i' → V.idxOf v < V.idxOf v' → i < i'

theorem idxOf_snoc_of_mem {V : List JVal} {v x : JVal} (h : v ∈ V) : (V ++ [x]).idxOf v = V.idxOf v := by
  rw [List.idxOf_append, if_pos h]

theorem Numbered.empty : Numbered StrTable.empty [] :=
  ⟨StrTable.empty_ok, fun v i h => by simp [StrTable.indexOf, StrTable.empty] at h, fun v h => by simp at h,
    fun v v' i i' h => by simp [StrTable.indexOf, StrTable.empty] at h⟩

theorem Numbered.add {t : StrTable JVal} {V : List JVal} (h : Numbered t V) (v : JVal) :
    Numbered (t.add v).2 (V ++ [v]) := by
  have hok := h.ok.add v
  unfold StrTable.add at hok ⊢
  cases hv : t.indexOf v with
  | some k =>
    rw [hv] at hok
    dsimp only at hok ⊢
    refine ⟨hok, fun x i hx => by simp [h.mem x i hx], fun x hx => ?_, fun x y i j hx hy hlt => ?_⟩
    · rcases List.mem_append.1 hx with hx | hx
      · exact h.has x hx
      · rw [List.mem_singleton.1 hx]; exact ⟨k, hv⟩
    · rw [idxOf_snoc_of_mem (h.mem x i hx), idxOf_snoc_of_mem (h.mem y j hy)] at hlt
      exact h.order x y i j hx hy hlt
  | none =>
    rw [hv] at hok
    dsimp only at hok ⊢
    have hnew : v ∉ V := fun hm => by
      obtain ⟨i, hi⟩ := h.has v hm
      rw [hv] at hi; cases hi
    have look : ∀ x i, (⟨t.array ++ [v], (v, t.array.length) :: t.set⟩ : StrTable JVal).indexOf x = some i →
        (x = v ∧ i = t.array.length) ∨ (x ≠ v ∧ t.indexOf x = some i) := by
      intro x i hx
      simp only [StrTable.indexOf, List.lookup_cons] at hx
      split at hx
      · rename_i he
        cases hx
        exact .inl ⟨eq_of_beq he, rfl⟩
      · rename_i he
        exact .inr ⟨fun e => by simp [e] at he, hx⟩
    refine ⟨hok, fun x i hx => ?_, fun x hx => ?_, fun x y i j hx hy hlt => ?_⟩
    · rcases look x i hx with ⟨rfl, -⟩ | ⟨-, hx⟩
      · simp
      · simp [h.mem x i hx]
    · by_cases e : x = v
      · exact ⟨t.array.length, by simp [StrTable.indexOf, e]⟩
      · rcases List.mem_append.1 hx with hx | hx
        · obtain ⟨i, hi⟩ := h.has x hx
          refine ⟨i, ?_⟩
          simp only [StrTable.indexOf, List.lookup_cons]
          split
          · rename_i hb
            exact absurd (eq_of_beq hb) e
          · exact hi
        · exact absurd (List.mem_singleton.1 hx) e
    · rcases look x i hx with ⟨rfl, rfl⟩ | ⟨hxv, hx'⟩
      · rcases look y j hy with ⟨rfl, rfl⟩ | ⟨hyv, hy'⟩
        · omega
        · have h1 := h.mem y j hy'
          rw [idxOf_snoc_of_mem h1, List.idxOf_append, if_neg hnew] at hlt
          have := List.idxOf_lt_length_of_mem h1
          omega
      · rcases look y j hy with ⟨rfl, rfl⟩ | ⟨hyv, hy'⟩
        · exact (List.getElem?_eq_some_iff.1 (h.ok.entries x i hx')).1
        · rw [idxOf_snoc_of_mem (h.mem x i hx'), idxOf_snoc_of_mem (h.mem y j hy')] at hlt
          exact h.order x y i j hx' hy' hlt

theorem Numbered.addUnchecked {t : StrTable JVal} {V : List JVal} (h : Numbered t V) (v : JVal) :
    Numbered (t.addUnchecked v).2 V :=
  ⟨h.ok.addUnchecked v, h.mem, h.has, h.order⟩

theorem Numbered.internAll : ∀ (vs : List JVal) {w : World} {V : List JVal}, Numbered w.strs V →
    Numbered (w.internAll vs).2.strs (V ++ vs)
  | [], w, V, h => by simpa [World.internAll] using h
  | v :: vs, w, V, h => by
    have := Numbered.internAll vs (w := (w.intern v).2) (V := V ++ [v]) (h.add v)
    rw [List.append_assoc] at this
    exact this

theorem Numbered.internAllNew : ∀ (vs : List JVal) {w : World} {V : List JVal}, Numbered w.strs V →
    Numbered (w.internAllNew vs).2.strs V
  | [], w, V, h => h
  | v :: vs, w, V, h => Numbered.internAllNew vs (w := (w.internNew v).2) (h.addUnchecked v)

theorem Numbered.give {w w' : World} {V : List JVal} (h : Numbered w.strs V) {ss cs ns : List JVal} {mp : Str}
    {d : SmHolder} (e : w.give (.plain ss cs ns mp) = .ok (d, w')) :
    Numbered w'.strs (V ++ MapArg.mentions (.plain ss cs ns mp)) := by
  cases e
  show Numbered (World.internAll _ ns).2.strs _
  rw [MapArg.mentions, ← List.append_assoc]
  exact Numbered.internAll ns (Numbered.internAllNew cs (Numbered.internAll ss h))

theorem Numbered.run {w w' : World} {V : List JVal} (h : Numbered w.strs V) {op : JOp} (hp : op.PlainMaps)
    {a : JAnswer} (r : op.run w = .ok (a, w')) : Numbered w'.strs (V ++ Spec.JOp.mentions op) := by
  have same : w'.strs = w.strs ∧ w'.maps = w.maps → Numbered w'.strs V := fun k => by rw [k.1]; exact h
  cases op with
  | newRaw v =>
    simp only [JOp.run, Except.map_ok_iff] at r
    obtain ⟨_, h, h2⟩ := r; cases h2
    simp only [Spec.JOp.mentions, List.append_nil]
    simp only [World.newRaw] at h
    split at h
    · cases h; exact same ⟨rfl, rfl⟩
    · simp only [Except.map_ok_iff] at h
      obtain ⟨w2, h3, rfl⟩ := h
      exact same (World.create_strs h3 :)
  | newOriginal v n =>
    simp only [JOp.run, Except.map_ok_iff] at r
    obtain ⟨_, r, h2⟩ := r; cases h2
    have key : ∀ w2 : World, w2.strs = ((w.internNew (some v)).2.intern (some n)).2.strs ∧
        w2.maps = ((w.internNew (some v)).2.intern (some n)).2.maps → Numbered w2.strs (V ++ [some n]) := by
      rintro w2 ⟨h1, h2⟩
      rw [h1]
      exact (h.addUnchecked (some v)).add (some n)
    simp only [World.newOriginal] at r
    split at r
    · split at r
      · cases r; exact key _ ⟨rfl, rfl⟩
      · simp only [Except.map_ok_iff] at r
        obtain ⟨w2, h3, rfl⟩ := r
        exact key w2 (World.create_strs h3)
    · exact key _ (World.create_strs r)
  | newL2l v n o =>
    simp only [JOp.run, Except.map_ok_iff] at r
    obtain ⟨_, r, h2⟩ := r; cases h2
    have := World.create_strs r
    rw [this.1]
    exact (h.add (some n)).addUnchecked (some o)
  | newSms v n m o i =>
    simp only [JOp.run, Except.map_ok_iff] at r
    obtain ⟨_, r, h2⟩ := r; cases h2
    simp only [World.newSms, Except.bind_ok_iff] at r
    obtain ⟨m', h1, i', h2, h3⟩ := r
    obtain ⟨⟨ss, cs, ns, mp, rfl⟩, hin⟩ := hp
    have k1 : Numbered m'.2.strs (V ++ [some n] ++ MapArg.mentions (.plain ss cs ns mp)) :=
      Numbered.give (w := ((w.internNew (some v)).2.intern (some n)).2) ((h.addUnchecked (some v)).add (some n)) h1
    have k2 : ∀ w2 : World, w2.giveInner i = .ok i' → Numbered w2.strs (V ++ [some n] ++ MapArg.mentions (.plain ss cs ns mp)) →
        Numbered i'.2.strs (V ++ Spec.JOp.mentions (.newSms v n (.plain ss cs ns mp) o i)) := by
      intro w2 e k
      cases i with
      | none =>
        cases e
        simpa [Spec.JOp.mentions] using k
      | some i =>
        obtain ⟨ss', cs', ns', mp', rfl⟩ := hin i rfl
        simp only [World.giveInner, Except.map_ok_iff] at e
        obtain ⟨p, e1, e2⟩ := e
        cases e2
        have := k.give e1
        simpa [Spec.JOp.mentions] using this
    have k3 := World.create_strs h3
    rw [k3.1]
    cases ht : truthy o with
    | none =>
      rw [ht] at h2
      exact k2 _ h2 k1
    | some s =>
      rw [ht] at h2
      exact k2 _ h2 (k1.addUnchecked (some s))
  | newPrefix p c =>
    simp only [Spec.JOp.mentions, List.append_nil]
    simp only [JOp.run, Except.bind_ok_iff, Except.map_ok_iff] at r
    obtain ⟨s, -, w2, h2, h3⟩ := r; cases h3
    exact same (World.create_strs h2)
  | newReplace c =>
    simp only [Spec.JOp.mentions, List.append_nil]
    simp only [JOp.run, Except.bind_ok_iff, Except.map_ok_iff] at r
    obtain ⟨s, -, w2, h2, h3⟩ := r; cases h3
    exact same (World.create_strs h2)
  | newConcat items =>
    simp only [Spec.JOp.mentions, List.append_nil]
    simp only [JOp.run, Except.bind_ok_iff, Except.map_ok_iff] at r
    obtain ⟨w1, h1, w2, h2, h3⟩ := r; cases h3
    have a := World.create_strs h1
    have b := World.addItems_strs h2
    exact same ⟨b.1.trans a.1, b.2.trans a.2⟩
  | add j item =>
    simp only [Spec.JOp.mentions, List.append_nil]
    simp only [JOp.run, Except.map_ok_iff] at r
    obtain ⟨w1, h1, h3⟩ := r; cases h3
    exact same (World.addItem_strs h1)
  | replace j x y t =>
    simp only [Spec.JOp.mentions, List.append_nil]
    simp only [JOp.run] at r
    split at r
    · simp only [Except.map_ok_iff] at r
      obtain ⟨p, h1, h3⟩ := r; cases h3
      exact same (World.call_strs (a := p.1) h1)
    · cases r
  | insert j x t =>
    simp only [Spec.JOp.mentions, List.append_nil]
    simp only [JOp.run] at r
    split at r
    · simp only [Except.map_ok_iff] at r
      obtain ⟨p, h1, h3⟩ := r; cases h3
      exact same (World.call_strs (a := p.1) h1)
    · cases r
  | source j =>
    simp only [Spec.JOp.mentions, List.append_nil]
    simp only [JOp.run, Except.map_ok_iff] at r
    obtain ⟨p, h1, h3⟩ := r; cases h3
    exact same (World.readSource_strs (s := p.1) h1)
  | size j =>
    simp only [Spec.JOp.mentions, List.append_nil]
    simp only [JOp.run, Except.map_ok_iff] at r
    obtain ⟨p, h1, h3⟩ := r; cases h3
    exact same (World.readSize_strs (n := p.1) h1)
  | sourceAndMap j c m =>
    simp only [Spec.JOp.mentions, List.append_nil]
    simp only [JOp.run] at r
    rw [(World.emit_strs r).1]; exact h
  | hash j =>
    simp only [Spec.JOp.mentions, List.append_nil]
    simp only [JOp.run, Except.map_ok_iff] at r
    obtain ⟨p, h1, h3⟩ := r; cases h3
    exact same ((World.hash_strs _).1 _ _ _ p.1 h1)
  | get k f =>
    simp only [Spec.JOp.mentions, List.append_nil]
    simp only [JOp.run] at r
    split at r
    · cases r
    · simp only [Except.map_ok_iff] at r
      obtain ⟨p, h1, h3⟩ := r; cases h3
      exact h
  | set k x =>
    simp only [Spec.JOp.mentions, List.append_nil]
    simp only [JOp.run] at r
    split at r
    · cases r
    · cases r; exact h

theorem Numbered.runFrom : ∀ (ops : List JOp) {w w' : World} {V : List JVal}, Numbered w.strs V →
    (∀ op ∈ ops, op.PlainMaps) → w.runFrom ops = .ok w' → Numbered w'.strs (V ++ Spec.mentions ops)
  | [], w, w', V, h, _, r => by cases r; simpa [Spec.mentions] using h
  | op :: ops, w, w', V, h, hp, r => by
    rw [World.runFrom, Except.bind_ok_iff] at r
    obtain ⟨⟨a, w1⟩, h1, h2⟩ := r
    have := Numbered.runFrom ops (h.run (hp op (by simp)) h1) (fun o ho => hp o (by simp [ho])) h2
    rw [List.append_assoc] at this
    exact this

/-- The table after a program numbers the strings in the order of first mention. -/
theorem World.run_numbered {ops : List JOp} {w : World} (hp : ∀ op ∈ ops, op.PlainMaps)
    (r : World.run ops = .ok w) : Numbered w.strs (Spec.mentions ops) := by
  have := Numbered.runFrom ops (w := World.empty) Numbered.empty hp r
  simpa using this

end WS
