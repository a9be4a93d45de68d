import Verif.Props.C61
import Verif.Proofs.JsEdit
/-!
# C83: arrays of an emitted map that are changed in place

Claim: changing an array of an emitted map in place (`map.sources[0] = "x"`) works as assigning the changed array: the
property reads the new entries, and a `SourceMapSource` made from the map uses them.

False (`C83_not_general`): only assignments mark the map as modified, so `SourceMapSource` takes the unchanged map from
wasm. Proved: reads always give the new entries (`C83_shown`). Once the map had an assignment, changes in place work
(`C83_assigned_partial`). Without one, a `SourceMapSource` never sees them (`C83_unseen`).
-/

namespace WS
open Spec

/-- The assignment of an array. -/
def Spec.AField.assign (l : List JVal) : AField → JAssign
  | .sources => .sources l
  | .contents => .contents l
  | .names => .names l

/-- What an array with these entries reads as: `sourcesContent` without entries is `undefined`. -/
def Spec.AField.reads (l : List JVal) : AField → JFieldVal
  | .contents => if l = [] then .undefined else .list l
  | _ => .list l

/-- The statement, with an assignment in place of a change. -/
def Spec.EOp.assigned : EOp → JOp
  | .js op => op
  | .edit k f l => .set k (AField.assign l f)

/-- The program without the changes. -/
def Spec.plainOps : List EOp → List JOp
  | [] => []
  | .js op :: ops => op :: plainOps ops
  | .edit .. :: ops => plainOps ops

/-- What the other statements returned. -/
def Spec.plainAnswers : List EOp → List JAnswer → List JAnswer
  | .js _ :: ops, a :: as => a :: plainAnswers ops as
  | .edit .. :: ops, _ :: as => plainAnswers ops as
  | _, _ => []

/-- How often the statement gives the map of pair `k` to a `SourceMapSource`. -/
def Spec.EOp.times (k : Nat) : EOp → Nat
  | .js (.newSms _ _ m _ i) => (if m = .emitted k then 1 else 0) + (if i = some (.emitted k) then 1 else 0)
  | _ => 0

/-- How often the program does. -/
def Spec.given (k : Nat) (ops : List EOp) : Nat := (ops.map (EOp.times k)).sum

/-- The map is assigned a property that every map has. -/
def Spec.Marks (k : Nat) (op : EOp) : Prop :=
  (∃ l, op = .js (.set k (.sources l))) ∨ (∃ l, op = .js (.set k (.contents l))) ∨ ∃ s, op = .js (.set k (.mappings s))

/-! ## Reads -/

theorem Emitted.put_keeps (e : Emitted) (f : AField) (l : List JVal) (h : (e.kept f).isSome) :
    (e.put f l).Keeps f.field (AField.reads l f) := by
  cases f with
  | sources => exact ⟨l, rfl, rfl⟩
  | contents =>
    cases l with
    | nil => exact .inr ⟨.inr rfl, rfl⟩
    | cons x l => exact .inl ⟨x, l, rfl, rfl⟩
  | names =>
    refine .inl ⟨?_, l, rfl, rfl⟩
    simp only [Emitted.kept] at h
    split at h
    · assumption
    · cases h

theorem Emitted.put_other {e : Emitted} {f : AField} {g : JField} {l : List JVal} {v : JFieldVal} (h : e.Keeps g v)
    (hg : g ≠ f.field) : (e.put f l).Keeps g v := by
  cases f <;> cases g <;> first | exact h | exact absurd rfl hg

theorem EOp.edit_ok {w w' : World} {k : Nat} {f : AField} {l : List JVal} {a : JAnswer}
    (r : (EOp.edit k f l).run w = .ok (a, w')) : a = .done ∧ ∃ e, w.maps[k]? = some e ∧ (e.kept f).isSome ∧
      w' = { w with maps := w.maps.set k (e.put f l) } := by
  simp only [EOp.run] at r
  split at r
  · cases r
  · split at r
    · cases r
    · rename_i he _ x hx
      cases r
      exact ⟨rfl, _, he, by rw [hx]; rfl, rfl⟩

theorem runEdits_keeps {g : JField} {v : JFieldVal} : ∀ (ops : List EOp) (w w' : World) (k : Nat) (e : Emitted)
    (ans : List JAnswer), w.maps[k]? = some e → e.Keeps g v →
    (∀ f l, EOp.edit k f l ∈ ops → g ≠ f.field) → (∀ a, .js (.set k a) ∈ ops → a.field ≠ g) →
    w.runEdits ops = .ok (ans, w') → ∃ e', w'.maps[k]? = some e' ∧ e'.Keeps g v
  | [], w, w', k, e, ans, hk, hp, _, _, r => by cases r; exact ⟨e, hk, hp⟩
  | op :: ops, w, w', k, e, ans, hk, hp, he, hs, r => by
    simp only [World.runEdits, Except.bind_ok_iff, Except.map_ok_iff] at r
    obtain ⟨⟨a, w1⟩, r1, ⟨as, w2⟩, r2, r3⟩ := r
    cases r3
    have : ∃ e', w1.maps[k]? = some e' ∧ e'.Keeps g v := by
      cases op with
      | js op =>
        exact (Keeps.lasting g v).run hk hp (fun _ _ _ h => Keeps.move h)
          (fun x hx _ _ h => Keeps.set h (hs x (by simp [hx]))) r1
      | edit i f l =>
        obtain ⟨-, e0, h0, h1, rfl⟩ := EOp.edit_ok r1
        by_cases hi : i = k
        · subst hi
          rw [hk] at h0; cases h0
          obtain ⟨hl, -⟩ := List.getElem?_eq_some_iff.mp hk
          exact ⟨e.put f l, by simp [hl], Emitted.put_other hp (he f l (by simp))⟩
        · exact ⟨e, by simp [List.getElem?_set_ne hi, hk], hp⟩
    obtain ⟨e', h1, h2⟩ := this
    exact runEdits_keeps ops w1 _ k e' _ h1 h2 (fun f l h => he f l (by simp [h])) (fun a h => hs a (by simp [h])) r2

/-- C83, reads. After a change the property reads the new entries, until it is changed or assigned again. -/
theorem C83_shown (w w1 w2 : World) (k : Nat) (f : AField) (l : List JVal) (a : JAnswer) (more : List EOp)
    (ans : List JAnswer) (r : (EOp.edit k f l).run w = .ok (a, w1)) (r2 : w1.runEdits more = .ok (ans, w2))
    (he : ∀ l, EOp.edit k f l ∉ more) (hs : ∀ x, .js (.set k x) ∈ more → x.field ≠ f.field) :
    Reads w2 k f.field (AField.reads l f) := by
  obtain ⟨-, e, h0, h1, rfl⟩ := EOp.edit_ok r
  obtain ⟨hl, -⟩ := List.getElem?_eq_some_iff.mp h0
  obtain ⟨e', h2, h3⟩ := runEdits_keeps more _ w2 k (e.put f l) ans (by simp [hl]) (e.put_keeps f l h1)
    (fun g l h hg => he l (by
      have : g = f := by cases f <;> cases g <;> first | rfl | cases hg
      rw [← this]; exact h)) hs r2
  refine ⟨{ w2 with maps := w2.maps.set k e' }, ?_⟩
  simp only [JOp.run, h2, h3.get w2, Except.map]

/-! ## Maps that are marked already -/

theorem Emitted.put_marked {e : Emitted} {f : AField} {l : List JVal} (h : e.modified = true) (hk : (e.kept f).isSome) :
    e.set (AField.assign l f) = e.put f l := by
  cases f with
  | sources => simp only [AField.assign, Emitted.set, Emitted.put, ← h]
  | contents => simp only [AField.assign, Emitted.set, Emitted.put, ← h]
  | names =>
    simp only [Emitted.kept] at hk
    split at hk
    · rename_i hn
      simp only [AField.assign, Emitted.set, hn, if_true, Emitted.put, ← h]
    · cases hk

theorem modified_lasting : Lasting (fun _ e => e.modified = true) :=
  ⟨fun _ h => h, fun h g => by rw [(Emitted.get_changes g).2.2.1]; exact h⟩

theorem set_modified {e : Emitted} (h : e.modified = true) (a : JAssign) : (e.set a).modified = true := by
  cases a <;> simp only [Emitted.set] <;> first | exact h | rfl | (split <;> first | rfl | exact h)

theorem EOp.run_marked {w w' : World} {op : EOp} {a : JAnswer} (r : op.run w = .ok (a, w')) {k : Nat} {e : Emitted}
    (hk : w.maps[k]? = some e) (h : e.modified = true) : ∃ e', w'.maps[k]? = some e' ∧ e'.modified = true := by
  cases op with
  | js op => exact modified_lasting.run hk h (fun _ _ _ h => h) (fun x _ _ _ h => set_modified h x) r
  | edit i f l =>
    obtain ⟨-, e0, h0, h1, rfl⟩ := EOp.edit_ok r
    by_cases hi : i = k
    · subst hi
      rw [hk] at h0; cases h0
      obtain ⟨hl, -⟩ := List.getElem?_eq_some_iff.mp hk
      exact ⟨e.put f l, by simp [hl], by cases f <;> exact h⟩
    · exact ⟨e, by simp [List.getElem?_set_ne hi, hk], h⟩

theorem returns_assigned : ∀ (ops : List EOp) (w w' : World) (ans : List JAnswer),
    (∀ a b k f l, ops = a ++ .edit k f l :: b →
      (∃ e, w.maps[k]? = some e ∧ e.modified = true) ∨ ∃ op ∈ a, Marks k op) →
    w.runEdits ops = .ok (ans, w') →
    returns w (ops.map EOp.assigned) = .ok ans ∧ w.runFrom (ops.map EOp.assigned) = .ok w'
  | [], w, w', ans, _, r => by cases r; exact ⟨rfl, rfl⟩
  | op :: ops, w, w', ans, h, r => by
    simp only [World.runEdits, Except.bind_ok_iff, Except.map_ok_iff] at r
    obtain ⟨⟨a, w1⟩, r1, ⟨as, w2⟩, r2, r3⟩ := r
    cases r3
    have step : (EOp.assigned op).run w = .ok (a, w1) := by
      cases op with
      | js op => exact r1
      | edit k f l =>
        obtain ⟨rfl, e, h0, h1, rfl⟩ := EOp.edit_ok r1
        rcases h [] ops k f l rfl with ⟨e', k1, k2⟩ | ⟨_, k1, _⟩
        · rw [h0] at k1; cases k1
          simp only [EOp.assigned, JOp.run, h0, Emitted.put_marked k2 h1]
        · cases k1
    have ih := returns_assigned ops w1 w2 as (fun x b k f l e => by
      rcases h (op :: x) b k f l (by rw [e]; rfl) with ⟨e', k1, k2⟩ | ⟨o, k1, k2⟩
      · exact .inl (EOp.run_marked r1 k1 k2)
      · rcases List.mem_cons.mp k1 with rfl | k1
        · refine .inl ?_
          rcases k2 with ⟨y, rfl⟩ | ⟨y, rfl⟩ | ⟨y, rfl⟩ <;>
          · simp only [EOp.run, JOp.run] at r1
            split at r1
            · cases r1
            · rename_i e0 he0
              cases r1
              obtain ⟨hl, -⟩ := List.getElem?_eq_some_iff.mp he0
              exact ⟨_, List.getElem?_set_self hl, rfl⟩
        · exact .inr ⟨o, k1, k2⟩) r2
    simp only [List.map_cons, returns, World.runFrom, step]
    exact ⟨by simp only [Except.bind, ih.1, Except.map], ih.2⟩

/-- C83 for maps that had an assignment before each change: the changes work as assignments. -/
theorem C83_assigned_partial (ops : List EOp) (ans : List JAnswer) (w : World)
    (h : ∀ a b k f l, ops = a ++ .edit k f l :: b → ∃ op ∈ a, Marks k op)
    (r : World.empty.runEdits ops = .ok (ans, w)) :
    returns World.empty (ops.map EOp.assigned) = .ok ans ∧ World.run (ops.map EOp.assigned) = .ok w :=
  returns_assigned ops _ w ans (fun a b k f l e => .inr (h a b k f l e)) r

/-! ## Maps that are never marked -/

theorem given_cons (k : Nat) (op : EOp) (ops : List EOp) : given k (op :: ops) = EOp.times k op + given k ops := by
  simp [given]

theorem times_gives {k : Nat} {op : JOp} (h : op.gives k) : 1 ≤ EOp.times k (.js op) := by
  cases op <;> first | exact h.elim | skip
  rcases h with h | h <;> simp [EOp.times, h] <;> omega

theorem fresh_lasting (n : Nat) :
    Lasting (fun _ e => e.modified = false ∧ (n ≠ 0 → e.wasm.isSome = true)) := by
  refine ⟨fun _ h => h, fun h g => ?_⟩
  have ch := Emitted.get_changes g
  refine ⟨by rw [ch.2.2.1]; exact h.1, fun hn => ?_⟩
  rcases ch.1 with k | ⟨wm, m, wm', k1, k2, k3⟩
  · rw [k]; exact h.2 hn
  · rw [k3]; rfl

theorem returns_unseen (E : Nat → Prop) : ∀ (ops : List EOp) (F : Nat → Over) (w w' : World) (ans : List JAnswer),
    (∀ j, w.maps.length ≤ j → F j = .nothing) → (∀ k, F k ≠ .nothing → E k) →
    (∀ k f l, EOp.edit k f l ∈ ops → E k) →
    (∀ k a, E k → .js (.set k a) ∈ ops → a.field = .source) →
    (∀ k f, (F k).has f = true → .js (.get k f) ∉ ops) →
    (∀ k f l a b, ops = a ++ .edit k f l :: b → .js (.get k f.field) ∉ b) →
    (∀ k, E k → given k ops ≤ 1) →
    (∀ k e, E k → w.maps[k]? = some e → e.modified = false ∧ (given k ops ≠ 0 → e.wasm.isSome = true)) →
    (w.over F).runEdits ops = .ok (ans, w') → returns w (plainOps ops) = .ok (plainAnswers ops ans)
  | [], F, w, w', ans, _, _, _, _, _, _, _, _, r => by cases r; rfl
  | op :: ops, F, w, w', ans, hF, hE, he, hs, hg, hl, ho, hi, r => by
    simp only [World.runEdits, Except.bind_ok_iff, Except.map_ok_iff] at r
    obtain ⟨⟨a, w1⟩, r1, ⟨as, w2⟩, r2, r3⟩ := r
    cases r3
    have hl' : ∀ k f l a b, ops = a ++ .edit k f l :: b → .js (.get k f.field) ∉ b :=
      fun k f l a b e => hl k f l (op :: a) b (by rw [e]; rfl)
    have ho' : ∀ k, E k → given k ops ≤ 1 := fun k hk => by
      have := ho k hk; rw [given_cons] at this; omega
    have hs' : ∀ k a, E k → .js (.set k a) ∈ ops → a.field = .source :=
      fun k a h1 h2 => hs k a h1 (List.mem_cons_of_mem _ h2)
    have he' : ∀ k f l, EOp.edit k f l ∈ ops → E k := fun k f l h => he k f l (List.mem_cons_of_mem _ h)
    cases op with
    | js op =>
      have blind : op.Blind F w := by
        have passes : ∀ k, 1 ≤ EOp.times k (.js op) → w.Passes F (.emitted k) := by
          intro k ht
          by_cases hk : E k
          · refine .inr fun e h => ?_
            obtain ⟨h1, h2⟩ := hi k e hk h
            exact ⟨h1, h2 (by rw [given_cons]; omega)⟩
          · refine .inl ?_
            cases hh : F k with
            | mk x y z =>
              have : ¬ F k ≠ .nothing := fun h => hk (hE k h)
              rw [Classical.not_not] at this
              rw [← hh]; exact this
        cases op with
        | newSms v n m o i =>
          refine ⟨?_, fun x hx => ⟨?_, fun k h1 h2 => ?_⟩⟩
          · cases m with
            | plain => trivial
            | emitted k => exact passes k (times_gives (.inl rfl))
          · cases x with
            | plain => trivial
            | emitted k => exact passes k (times_gives (.inr hx))
          · apply Classical.byContradiction
            intro h
            have := ho k (hE k h)
            rw [given_cons] at this
            have h3 : i = some (.emitted k) := by rw [hx, h1]
            simp only [EOp.times, h2, h3, if_true] at this
            omega
        | get k f =>
          cases h : (F k).has f with
          | false => exact h
          | true => exact absurd (List.mem_cons_self ..) (hg k f h)
        | set k x =>
          by_cases h : F k = .nothing
          · exact .inl h
          · exact .inr (hs k x (hE k h) (List.mem_cons_self ..))
        | _ => trivial
      have r1' : op.run (w.over F) = .ok (a, w1) := r1
      rw [JOp.over_run w op blind (hF _ (Nat.le_refl _)), Except.map_ok_iff] at r1'
      obtain ⟨⟨a', u⟩, q1, q2⟩ := r1'
      cases q2
      obtain ⟨n1, n2⟩ := JOp.run_new q1
      have ih := returns_unseen E ops F u _ as (fun j h => hF j (by omega)) hE he' hs'
        (fun k f h h2 => hg k f h (List.mem_cons_of_mem _ h2)) hl' ho' (fun k e hk h => by
          by_cases hlen : w.maps.length ≤ k
          · have := n2 k e hlen h
            exact ⟨this.1, fun _ => this.2⟩
          · have hlt : k < w.maps.length := by omega
            have old := hi k w.maps[k] hk (List.getElem?_eq_getElem hlt)
            have tot := ho k hk
            rw [given_cons] at old tot
            obtain ⟨e', k1, k2⟩ := (fresh_lasting (given k ops)).run (List.getElem?_eq_getElem hlt)
              ⟨old.1, fun h => old.2 (by omega)⟩
              (fun hgv t e h => ⟨h.1, fun h0 => absurd h0 (by have := times_gives hgv; omega)⟩)
              (fun x hx t e h => by
                have := hs k x hk (by rw [hx]; exact List.mem_cons_self ..)
                cases x <;> first | exact h | cases this) q1
            rw [h] at k1; cases k1
            exact k2) r2
      simp only [plainOps, plainAnswers, returns, q1, Except.bind, ih, Except.map]
    | edit k f l =>
      obtain ⟨-, e0, h0, h1, rfl⟩ := EOp.edit_ok r1
      rw [over_get?] at h0
      cases hk : w.maps[k]? with
      | none => rw [hk] at h0; cases h0
      | some e =>
        rw [hk] at h0
        cases h0
        rw [over_with w k e f l hk] at r2
        obtain ⟨hlen, -⟩ := List.getElem?_eq_some_iff.mp hk
        have hEk : E k := he k f l (List.mem_cons_self ..)
        exact returns_unseen E ops _ w _ as
          (fun j h => by
            have : j ≠ k := by omega
            simp only [this, if_false]; exact hF j h)
          (fun j h => by
            by_cases hj : j = k
            · rw [hj]; exact hEk
            · simp only [hj, if_false] at h; exact hE j h)
          he' hs'
          (fun j g h h2 => by
            by_cases hj : j = k
            · subst hj
              simp only [if_true] at h
              rcases Over.with_has h with h | rfl
              · exact hg j g h (List.mem_cons_of_mem _ h2)
              · exact hl j f l [] ops rfl h2
            · simp only [hj, if_false] at h
              exact hg j g h (List.mem_cons_of_mem _ h2))
          hl' ho' (fun j e hj h => by
            have := hi j e hj h
            rw [given_cons] at this
            exact ⟨this.1, fun h0 => this.2 (by omega)⟩) r2

/-- C83, maps without assignments. If the changed properties are not read afterwards and each changed map is given once
at most, then the statements return what they return without the changes: a `SourceMapSource` made from a changed map
does not see them. -/
theorem C83_unseen (ops : List EOp) (ans : List JAnswer) (w : World)
    (hs : ∀ k f l a, EOp.edit k f l ∈ ops → .js (.set k a) ∈ ops → a.field = .source)
    (hg : ∀ k f l a b, ops = a ++ .edit k f l :: b → .js (.get k f.field) ∉ b)
    (ho : ∀ k f l, EOp.edit k f l ∈ ops → given k ops ≤ 1)
    (r : World.empty.runEdits ops = .ok (ans, w)) :
    returns World.empty (plainOps ops) = .ok (plainAnswers ops ans) :=
  returns_unseen (fun k => ∃ f l, EOp.edit k f l ∈ ops) ops (fun _ => .nothing) World.empty w ans (fun _ _ => rfl)
    (fun _ h => absurd rfl h) (fun k f l h => ⟨f, l, h⟩) (fun k a ⟨f, l, h⟩ h2 => hs k f l a h h2)
    (fun k f h => by cases f <;> cases h) hg (fun k ⟨f, l, h⟩ => ho k f l h)
    (fun k e _ h => by cases h) r

/-! ## Cases -/

/-- A map is emitted and its sources are read; `change` is done; a `SourceMapSource` is made from the map, and the
sources of its map are read. -/
def c83 (change : EOp) : List EOp :=
  [.js (.newOriginal "a b\n".toList "o.js".toList), .js (.sourceAndMap 0 true true), .js (.get 0 .sources), change,
   .js (.newSms "a b\n".toList "y".toList (.emitted 0) none none), .js (.sourceAndMap 1 true true),
   .js (.get 1 .sources)]

/-- The last answer of the program. -/
def lastAnswer (ops : List EOp) : Option JAnswer :=
  (World.empty.runEdits ops).toOption.bind fun p => p.1.getLast?

/-- Assigning another name works, changing the name in place does not. -/
theorem C83_not_general :
    lastAnswer (c83 (.js (.set 0 (.sources [some "p.js".toList])))) = some (.field (.list [some "p.js".toList])) ∧
    lastAnswer (c83 (.edit 0 .sources [some "p.js".toList])) = some (.field (.list [some "o.js".toList])) := by
  constructor <;> decide +kernel

/-! Non-trivial cases. The program with the change in place meets the conditions of `C83_unseen`: -/

example : ∃ ans w, World.empty.runEdits (c83 (.edit 0 .sources [some "p.js".toList])) = .ok (ans, w) ∧
    returns World.empty (plainOps (c83 (.edit 0 .sources [some "p.js".toList]))) =
      .ok (plainAnswers (c83 (.edit 0 .sources [some "p.js".toList])) ans) := by
  have h : ∃ p, World.empty.runEdits (c83 (.edit 0 .sources [some "p.js".toList])) = .ok p := by
    cases h : World.empty.runEdits (c83 (.edit 0 .sources [some "p.js".toList])) with
    | ok p => exact ⟨p, rfl⟩
    | error x =>
      have : (World.empty.runEdits (c83 (.edit 0 .sources [some "p.js".toList]))).toOption.isSome = true := by
        decide +kernel
      rw [h] at this; cases this
  obtain ⟨⟨ans, w⟩, h⟩ := h
  refine ⟨ans, w, h, C83_unseen _ ans w ?_ ?_ ?_ h⟩
  · intro k f l a h1 h2
    simp [c83] at h2
  · intro k f l a b e
    rcases a with _ | ⟨x1, _ | ⟨x2, _ | ⟨x3, _ | ⟨x4, _ | ⟨x5, _ | ⟨x6, _ | ⟨x7, a⟩⟩⟩⟩⟩⟩⟩ <;> simp [c83] at e
    obtain ⟨-, -, -, ⟨rfl, rfl, rfl⟩, rfl⟩ := e
    simp
  · intro k f l h1
    simp [c83] at h1
    obtain ⟨rfl, rfl, rfl⟩ := h1
    decide

/-- The mappings are assigned too, before the change. -/
def c83Marked : List EOp :=
  [.js (.newOriginal "a b\n".toList "o.js".toList), .js (.sourceAndMap 0 true true), .js (.get 0 .sources),
   .js (.get 0 .contents), .js (.set 0 (.mappings "AAAA".toList)), .edit 0 .sources [some "p.js".toList],
   .js (.newSms "a b\n".toList "y".toList (.emitted 0) none none), .js (.sourceAndMap 1 true true),
   .js (.get 1 .sources)]

/-- It meets the condition of `C83_assigned_partial`, and the change works. -/
example : (∀ a b k f l, c83Marked = a ++ .edit k f l :: b → ∃ op ∈ a, Marks k op) ∧
    lastAnswer c83Marked = some (.field (.list [some "p.js".toList])) := by
  refine ⟨?_, by decide +kernel⟩
  intro a b k f l e
  rcases a with _ | ⟨x1, _ | ⟨x2, _ | ⟨x3, _ | ⟨x4, _ | ⟨x5, _ | ⟨x6, _ | ⟨x7, _ | ⟨x8, _ | ⟨x9, a⟩⟩⟩⟩⟩⟩⟩⟩⟩ <;>
    simp [c83Marked] at e
  obtain ⟨rfl, rfl, rfl, rfl, rfl, ⟨rfl, -, -⟩, -⟩ := e
  exact ⟨.js (.set 0 (.mappings "AAAA".toList)), by simp, .inr (.inr ⟨_, rfl⟩)⟩

/-- `sourcesContent` emptied in place reads `undefined`, and other statements do not change that. -/
example : lastAnswer [.js (.newOriginal "a b\n".toList "o.js".toList), .js (.sourceAndMap 0 true true),
    .js (.get 0 .contents), .edit 0 .contents [], .js (.newSms "x".toList "y".toList (.emitted 0) none none),
    .js (.get 0 .contents)] = some (.field .undefined) := by decide +kernel

end WS
