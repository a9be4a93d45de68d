import Verif.Proofs.JsCache
import Verif.Proofs.JsLabel
/-!
# What programs with CachedSources do to the other objects

The statements that are not reads are the same with and without `CachedSource`s.
-/

namespace WS
open Spec

/-- What a statement does to other objects, unless it reads: the same statement with the objects meant
in the place of `CachedSource`s. -/
def _root_.WS.COp.plain (t : CThings) : COp → List JOp
  | .js op => if op.quiet then [] else [op]
  | .newPrefix p a => [.newPrefix p (t.arg a)]
  | .newReplace a => [.newReplace (t.arg a)]
  | .newConcat as => [.newConcat (as.map t.arg)]
  | .add j a => [.add j (t.arg a)]
  | _ => []

/-- Of a program, from a given moment. -/
def Spec.plainFrom : CThings → List COp → List JOp
  | _, [] => []
  | t, op :: ops => op.plain t ++ plainFrom (cstep t op) ops

/-- The statements of a program that are not reads, without `CachedSource`s. -/
def Spec.cplain (ops : List COp) : List JOp := plainFrom ⟨[], []⟩ ops

/-- Not a read. -/
abbrev JOp.loud (op : JOp) : Bool := !op.quiet

theorem plainFrom_append : ∀ (a b : List COp) (t : CThings),
    plainFrom t (a ++ b) = plainFrom t a ++ plainFrom (a.foldl cstep t) b
  | [], b, t => rfl
  | op :: a, b, t => by
    simp only [List.cons_append, plainFrom, List.foldl_cons, plainFrom_append a b, List.append_assoc]

theorem filter_loud_of_quiet {tr : List JOp} (h : ∀ op ∈ tr, op.quiet = true) : tr.filter JOp.loud = [] := by
  rw [List.filter_eq_nil_iff]
  intro op ho
  simp [JOp.loud, h op ho]

theorem quiet_of_filter_loud {tr : List JOp} (h : tr.filter JOp.loud = []) : ∀ op ∈ tr, op.quiet = true := by
  rw [List.filter_eq_nil_iff] at h
  intro op ho
  have := h op ho
  simpa [JOp.loud] using this

theorem CWorld.js_trace {w w' : CWorld} {op : JOp} {a : CReply} (e : w.js op = .ok (a, w')) :
    ∃ tr : List JOp, w.base.runFrom tr = .ok w'.base ∧ tr.filter JOp.loud = if op.quiet then [] else [op] := by
  simp only [CWorld.js, Except.map_ok_iff] at e
  obtain ⟨⟨x, b⟩, h1, h2⟩ := e
  cases h2
  refine ⟨[op], World.runFrom_one h1, ?_⟩
  cases hq : op.quiet <;> simp [JOp.loud, hq]

theorem CWorld.Traced.trace {w w' : CWorld} (h : w.Traced w') :
    ∃ tr : List JOp, w.base.runFrom tr = .ok w'.base ∧ tr.filter JOp.loud = [] := by
  obtain ⟨-, tr, h1, h2⟩ := h
  exact ⟨tr, h1, filter_loud_of_quiet h2⟩

/-- A statement does to the other objects what it does without `CachedSource`s, and reads. -/
theorem COp.run_trace {w w' : CWorld} {t : CThings} (S : w.Sound t) {op : COp} {a : CReply}
    (e : op.run w = .ok (a, w')) :
    ∃ tr : List JOp, w.base.runFrom tr = .ok w'.base ∧ tr.filter JOp.loud = op.plain t := by
  cases op with
  | js op => exact CWorld.js_trace e
  | newCached r =>
    simp only [COp.run] at e
    split at e
    · cases e
    · cases e; exact ⟨[], rfl, rfl⟩
  | newPrefix p a =>
    simp only [COp.run, Except.bind_ok_iff] at e
    obtain ⟨c, h1, h2⟩ := e
    have := CWorld.js_trace h2
    rw [← S.arg h1] at this; exact this
  | newReplace a =>
    simp only [COp.run, Except.bind_ok_iff] at e
    obtain ⟨c, h1, h2⟩ := e
    have := CWorld.js_trace h2
    rw [← S.arg h1] at this; exact this
  | newConcat as =>
    simp only [COp.run, Except.bind_ok_iff] at e
    obtain ⟨c, h1, h2⟩ := e
    have := CWorld.js_trace h2
    rw [← S.args h1] at this; exact this
  | add j a =>
    simp only [COp.run, Except.bind_ok_iff] at e
    obtain ⟨c, h1, h2⟩ := e
    have := CWorld.js_trace h2
    rw [← S.arg h1] at this; exact this
  | source k =>
    simp only [COp.run, Except.map_ok_iff] at e
    obtain ⟨⟨s, u⟩, h1, h2⟩ := e
    cases h2
    exact (CWorld.readSource_traced _ _ _ _ _ h1).trace
  | size k =>
    simp only [COp.run, Except.map_ok_iff] at e
    obtain ⟨⟨s, u⟩, h1, h2⟩ := e
    cases h2
    exact (CWorld.readSize_traced _ _ _ _ _ h1).trace
  | map k o =>
    simp only [COp.run, Except.map_ok_iff] at e
    obtain ⟨⟨s, u⟩, h1, h2⟩ := e
    cases h2
    exact (CWorld.readMap_traced _ _ _ _ _ _ h1).trace
  | both k o =>
    simp only [COp.run, Except.map_ok_iff] at e
    obtain ⟨⟨s, u⟩, h1, h2⟩ := e
    cases h2
    exact (CWorld.readBoth_traced _ _ _ _ _ _ h1).trace
  | hash k =>
    simp only [COp.run] at e
    split at e
    · cases e
    · exact CWorld.js_trace e

theorem CWorld.runFrom_trace {ops : List COp} : ∀ {w w' : CWorld} {t : CThings}, w.Sound t →
    (∀ op ∈ ops, op.Proper) → w.runFrom ops = .ok w' →
    ∃ tr : List JOp, w.base.runFrom tr = .ok w'.base ∧ tr.filter JOp.loud = plainFrom t ops := by
  induction ops with
  | nil => intro w w' t S _ e; cases e; exact ⟨[], rfl, rfl⟩
  | cons op ops ih =>
    intro w w' t S hp e
    simp only [CWorld.runFrom, Except.bind_ok_iff] at e
    obtain ⟨⟨a, u⟩, h1, h2⟩ := e
    obtain ⟨tr, h3, h4⟩ := COp.run_trace S h1
    obtain ⟨tr', h5, h6⟩ := ih (COp.run_sound S (hp op (by simp)) h1) (fun o h => hp o (by simp [h])) h2
    exact ⟨tr ++ tr', World.runFrom_append h3 h5, by rw [List.filter_append, h4, h6]; rfl⟩

/-- Reads describe nothing. -/
theorem jthings_loud (tr : List JOp) : jthings (tr.filter JOp.loud) = jthings tr := by
  have : ∀ (l : List JOp) (st : List JThing), (l.filter JOp.loud).foldl jstep st = l.foldl jstep st := by
    intro l
    induction l with
    | nil => intro st; rfl
    | cons o l ih =>
      intro st
      cases hq : o.quiet with
      | true => simp [JOp.loud, hq, ih, JOp.quiet_step hq]
      | false => simp [JOp.loud, hq, ih]
  exact this tr []

/-- Reads make nothing. -/
theorem jmade_loud (tr : List JOp) : jmade (tr.filter JOp.loud) = jmade tr := by
  unfold jmade
  rw [List.filter_filter]
  congr 1
  funext op
  cases op <;> rfl

/-- What holds of reads and of the other statements holds of all. -/
theorem forall_loud {P : JOp → Prop} (hq : ∀ op, op.quiet = true → P op) {tr l : List JOp}
    (h : tr.filter JOp.loud = l) (hl : ∀ op ∈ l, P op) : ∀ op ∈ tr, P op := by
  intro op ho
  cases h' : op.quiet with
  | true => exact hq op h'
  | false => exact hl op (by rw [← h]; exact List.mem_filter.2 ⟨ho, by simp [JOp.loud, h']⟩)

theorem COp.plain_js {t : CThings} {op : COp} {o : JOp} (h : o ∈ op.plain t) :
    op = .js o ∨ (∀ k, ¬ o.gives k) ∧ (∀ k a, o ≠ .set k a) ∧ o.Proper := by
  cases op with
  | js op =>
    simp only [COp.plain] at h
    split at h
    · cases h
    · rw [List.mem_singleton.1 h]; exact .inl rfl
  | newPrefix => rw [List.mem_singleton.1 h]; exact .inr ⟨fun _ h => h, (fun _ _ h => by cases h), trivial⟩
  | newReplace => rw [List.mem_singleton.1 h]; exact .inr ⟨fun _ h => h, (fun _ _ h => by cases h), trivial⟩
  | newConcat => rw [List.mem_singleton.1 h]; exact .inr ⟨fun _ h => h, (fun _ _ h => by cases h), trivial⟩
  | add => rw [List.mem_singleton.1 h]; exact .inr ⟨fun _ h => h, (fun _ _ h => by cases h), trivial⟩
  | _ => cases h

theorem plainFrom_js : ∀ {ops : List COp} {t : CThings} {o : JOp}, o ∈ plainFrom t ops →
    .js o ∈ ops ∨ (∀ k, ¬ o.gives k) ∧ (∀ k a, o ≠ .set k a) ∧ o.Proper
  | [], _, _, h => by cases h
  | op :: ops, t, o, h => by
    simp only [plainFrom, List.mem_append] at h
    rcases h with h | h
    · rcases COp.plain_js h with rfl | h
      · exact .inl (by simp)
      · exact .inr h
    · rcases plainFrom_js h with h | h
      · exact .inl (by simp [h])
      · exact .inr h

/-- What a program with `CachedSource`s does to the other classes. -/
theorem CWorld.run_trace {ops : List COp} {w : CWorld} (hp : ∀ op ∈ ops, op.Proper) (e : CWorld.run ops = .ok w) :
    ∃ tr : List JOp, World.run tr = .ok w.base ∧ tr.filter JOp.loud = cplain ops ∧ ∀ op ∈ tr, op.Proper := by
  obtain ⟨tr, h1, h2⟩ := CWorld.runFrom_trace CWorld.empty_sound hp e
  refine ⟨tr, h1, h2, forall_loud (fun op h => JOp.quiet_proper h) h2 fun o ho => ?_⟩
  rcases plainFrom_js ho with h | h
  · exact hp _ h
  · exact h.2.2

theorem plain_things (t : CThings) (op : COp) : (op.plain t).foldl jstep t.things = (cstep t op).things := by
  cases op with
  | js op =>
    simp only [COp.plain, cstep]
    split
    · rename_i h; rw [JOp.quiet_step h]; rfl
    · rfl
  | _ => rfl

theorem cplain_things (ops : List COp) : jthings (cplain ops) = (cthings ops).things := by
  have : ∀ (ops : List COp) (t : CThings), (plainFrom t ops).foldl jstep t.things = (ops.foldl cstep t).things := by
    intro ops
    induction ops with
    | nil => intro t; rfl
    | cons op ops ih =>
      intro t
      rw [plainFrom, List.foldl_append, List.foldl_cons, ← ih, plain_things]
  exact this ops ⟨[], []⟩

end WS
