import Verif.Model.JsList
import Verif.Props.C55
/-! # The string table only grows, also while list-map objects are used -/

namespace WS
open Spec

/-- The table has grown, and is still as it should be. -/
structure StrTable.Grown (t t' : StrTable JVal) : Prop where
  array : ∃ r, t'.array = t.array ++ r
  ok : t.Ok → t'.Ok
  index : ∀ v i, t.indexOf v = some i → t'.indexOf v = some i

theorem StrTable.Grown.ext {t t' : StrTable JVal} (h : t.Grown t') : t.Ext t' := ⟨h.array, h.index⟩

theorem StrTable.Grown.rfl' (t : StrTable JVal) : t.Grown t := ⟨⟨[], by simp⟩, id, fun _ _ h => h⟩

theorem StrTable.Grown.of_eq {t t' : StrTable JVal} (h : t' = t) : t.Grown t' := h ▸ .rfl' _

theorem StrTable.Grown.trans {a b c : StrTable JVal} (h : a.Grown b) (h' : b.Grown c) : a.Grown c := by
  obtain ⟨r, hr⟩ := h.array
  obtain ⟨r', hr'⟩ := h'.array
  exact ⟨⟨r ++ r', by rw [hr', hr, List.append_assoc]⟩, fun x => h'.ok (h.ok x),
    fun v i e => h'.index v i (h.index v i e)⟩

theorem World.intern_grown (w : World) (v : JVal) : w.strs.Grown (w.intern v).2.strs :=
  ⟨(w.intern_same v).strs, fun h => h.add v, (w.intern_same v).index⟩

theorem World.internNew_grown (w : World) (v : JVal) : w.strs.Grown (w.internNew v).2.strs :=
  ⟨(w.internNew_same v).strs, fun h => h.addUnchecked v, (w.internNew_same v).index⟩

theorem World.internAll_grown (w : World) (vs : List JVal) : w.strs.Grown (w.internAll vs).2.strs :=
  ⟨(w.internAll_same vs).strs, fun h => (World.internAll_values h).1,
    (w.internAll_same vs).index⟩

theorem World.internAllNew_grown (w : World) (vs : List JVal) :
    w.strs.Grown (w.internAllNew vs).2.strs :=
  ⟨(w.internAllNew_same vs).strs, fun h => (World.internAllNew_values h).1,
    (w.internAllNew_same vs).index⟩

theorem World.give_grown {w w' : World} {a : MapArg} {hd : SmHolder} (e : w.give a = .ok (hd, w')) :
    w.strs.Grown w'.strs := ⟨(World.give_same e).strs, fun h => World.give_ok h e,
    (World.give_same e).index⟩

theorem World.giveInner_grown {w w' : World} {a : Option MapArg} {hd : Option SmHolder}
    (e : w.giveInner a = .ok (hd, w')) : w.strs.Grown w'.strs := by
  cases a with
  | none => cases e; exact .rfl' _
  | some a =>
    simp only [World.giveInner, Except.map_ok_iff] at e
    obtain ⟨p, h1, h2⟩ := e
    cases h2
    exact World.give_grown h1

/-- No statement takes strings out of the table. -/
theorem JOp.run_grown {w w' : World} {op : JOp} {a : JAnswer} (r : op.run w = .ok (a, w')) :
    w.strs.Grown w'.strs := by
  cases op with
  | newRaw v =>
    simp only [JOp.run, Except.map_ok_iff] at r
    obtain ⟨_, h, h2⟩ := r; cases h2
    simp only [World.newRaw] at h
    split at h
    · cases h; exact .rfl' _
    · simp only [Except.map_ok_iff] at h
      obtain ⟨w2, h3, rfl⟩ := h
      exact .of_eq (World.create_strs h3).1
  | newOriginal v n =>
    simp only [JOp.run, Except.map_ok_iff] at r
    obtain ⟨_, h, h2⟩ := r; cases h2
    have hs := (w.internNew_grown (some v)).trans ((w.internNew (some v)).2.intern_grown (some n))
    simp only [World.newOriginal] at h
    split at h
    · split at h
      · cases h; exact hs
      · simp only [Except.map_ok_iff] at h
        obtain ⟨w2, h3, rfl⟩ := h
        exact hs.trans (.of_eq (World.create_strs h3).1)
    · exact hs.trans (.of_eq (World.create_strs h).1)
  | newL2l v n o =>
    simp only [JOp.run, Except.map_ok_iff] at r
    obtain ⟨_, h, h2⟩ := r; cases h2
    exact ((w.intern_grown (some n)).trans ((w.intern (some n)).2.internNew_grown (some o))).trans
      (.of_eq (World.create_strs h).1)
  | newSms v n m o i =>
    simp only [JOp.run, Except.map_ok_iff] at r
    obtain ⟨_, h, h2⟩ := r; cases h2
    simp only [World.newSms, Except.bind_ok_iff] at h
    obtain ⟨m', h1, i', h2, h3⟩ := h
    have hs := ((w.internNew_grown (some v)).trans
      ((w.internNew (some v)).2.intern_grown (some n))).trans (World.give_grown h1)
    have hi : m'.2.strs.Grown i'.2.strs := by
      cases ht : truthy o with
      | none => rw [ht] at h2; exact World.giveInner_grown h2
      | some s => rw [ht] at h2; exact (m'.2.internNew_grown (some s)).trans (World.giveInner_grown h2)
    exact (hs.trans hi).trans (.of_eq (World.create_strs h3).1)
  | newPrefix p c =>
    simp only [JOp.run, Except.map_ok_iff, Except.bind_ok_iff] at r
    obtain ⟨s, hs, _, h, h2⟩ := r; cases h2
    exact .of_eq (World.create_strs h).1
  | newReplace c =>
    simp only [JOp.run, Except.map_ok_iff, Except.bind_ok_iff] at r
    obtain ⟨s, hs, _, h, h2⟩ := r; cases h2
    exact .of_eq (World.create_strs h).1
  | newConcat items =>
    simp only [JOp.run, Except.map_ok_iff, Except.bind_ok_iff] at r
    obtain ⟨w1, h1, w2, h2, h3⟩ := r; cases h3
    exact .of_eq ((World.addItems_strs h2).1.trans (World.create_strs h1).1)
  | add j item =>
    simp only [JOp.run, Except.map_ok_iff] at r
    obtain ⟨_, h, h2⟩ := r; cases h2
    exact .of_eq (World.addItem_strs h).1
  | replace j a b t =>
    simp only [JOp.run] at r
    split at r
    · simp only [Except.map_ok_iff] at r
      obtain ⟨p, h1, h2⟩ := r; cases h2
      exact .of_eq (World.call_strs h1).1
    · cases r
  | insert j a t =>
    simp only [JOp.run] at r
    split at r
    · simp only [Except.map_ok_iff] at r
      obtain ⟨p, h1, h2⟩ := r; cases h2
      exact .of_eq (World.call_strs h1).1
    · cases r
  | source j =>
    simp only [JOp.run, Except.map_ok_iff] at r
    obtain ⟨_, h, h2⟩ := r; cases h2; exact .of_eq (World.readSource_strs h).1
  | size j =>
    simp only [JOp.run, Except.map_ok_iff] at r
    obtain ⟨_, h, h2⟩ := r; cases h2; exact .of_eq (World.readSize_strs h).1
  | sourceAndMap j c m => exact .of_eq (World.emit_strs r).1
  | hash j =>
    simp only [JOp.run, Except.map_ok_iff] at r
    obtain ⟨_, h, h2⟩ := r; cases h2
    exact .of_eq ((World.hash_strs _).1 _ _ _ _ h).1
  | get l f =>
    simp only [JOp.run] at r
    split at r
    · cases r
    · simp only [Except.map_ok_iff] at r
      obtain ⟨p, h1, h2⟩ := r; cases h2
      exact .rfl' _
  | set l x =>
    simp only [JOp.run] at r
    split at r
    · cases r
    · cases r; exact .rfl' _

theorem LWorld.names_grown (w : LWorld) (source : Option Str) (original : JVal) :
    w.base.strs.Grown (w.names source original).2.2.base.strs := by
  simp only [LWorld.names]
  split
  · exact .rfl' _
  · exact (w.base.intern_grown _).trans (World.internNew_grown _ _)

theorem LWorld.names_lists (w : LWorld) (source : Option Str) (original : JVal) :
    (w.names source original).2.2.lists = w.lists := by
  simp only [LWorld.names]
  split <;> rfl

theorem LWorld.names_maps (w : LWorld) (source : Option Str) (original : JVal) :
    (w.names source original).2.2.base.maps = w.base.maps := by
  simp only [LWorld.names]
  split <;> rfl

end WS
