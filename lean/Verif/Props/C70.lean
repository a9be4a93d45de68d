import Verif.Props.C61
import Verif.Props.C62
import Verif.Props.C68
import Verif.Proofs.JsLedger
/-!
# C70: line maps do not depend on what else the process did

Claim: what `sourceAndMap({columns: false})` hands out for an object depends on the objects it is made of only,
not on the numbers of objects, strings and wasm objects, on the other objects of the process, or on reads.
-/

namespace WS
open Spec

/-! ## Spec: objects that are the same but for their numbers -/

/-- The arguments are the same but for object numbers, which correspond. -/
inductive Spec.SameArg (m : Nat → Nat → Prop) : JSrc → JSrc → Prop where
  | str (s : List Char) : SameArg m (.str s) (.str s)
  | obj {i j : Nat} : m i j → SameArg m (.obj i) (.obj j)

/-- The statement makes an object that is not made of others; a map is given as an ordinary object. -/
def Spec.JOp.Leaf : JOp → Prop
  | .newRaw _ | .newOriginal .. | .newL2l .. | .newSms _ _ (.plain ..) _ _ => True
  | _ => False

/-- The statement brings a file along. -/
def Spec.JOp.Files : JOp → Prop
  | .newOriginal .. | .newL2l .. | .newSms .. => True
  | _ => False

/-- Two objects, given by what they are and by the statements that made them, are made by the same statement, or
in the same way of objects that correspond. -/
inductive Spec.Counterpart (m : Nat → Nat → Prop) : Option JThing → Option JOp → Option JThing → Option JOp → Prop where
  | leaf {x y : Option JThing} {op : JOp} : JOp.Leaf op → Counterpart m x (some op) y (some op)
  | prefixed {o o' : Option JOp} {p : List Char} {c c' : JSrc} : SameArg m c c' →
      Counterpart m (some (.prefixed p c)) o (some (.prefixed p c')) o'
  | replaced {o o' : Option JOp} {rs : List JRequest} {c c' : JSrc} : SameArg m c c' →
      Counterpart m (some (.replaced c rs)) o (some (.replaced c' rs)) o'
  | joined {o o' : Option JOp} {items items' : List JSrc} : items.length = items'.length →
      (∀ (k : Nat) (a b : JSrc), items[k]? = some a → items'[k]? = some b → SameArg m a b) →
      Counterpart m (some (.joined items)) o (some (.joined items')) o'

/-- Objects of the one program correspond to objects of the other. -/
def Spec.Alike (m : Nat → Nat → Prop) (ops ops' : List JOp) : Prop :=
  ∀ i j, m i j → Counterpart m (jthings ops)[i]? (jmade ops)[i]? (jthings ops')[j]? (jmade ops')[j]?

/-- The object brings a file along. -/
def Spec.IsFile (ops : List JOp) (i : Nat) : Prop := ∃ op, (jmade ops)[i]? = some op ∧ JOp.Files op

/-- Different objects that bring files along correspond to different objects. -/
def Spec.FilesApart (m : Nat → Nat → Prop) (ops : List JOp) : Prop :=
  ∀ i j i' j', m i j → m i' j' → IsFile ops i → IsFile ops i' → (i = i' ↔ j = j')

/-- None of the objects is a `PrefixSource` or `ReplaceSource`. -/
def Spec.NoRewriting (m : Nat → Nat → Prop) (ops : List JOp) : Prop :=
  ∀ i j x, m i j → (jthings ops)[i]? = some x → (∀ p c, x ≠ .prefixed p c) ∧ ∀ c rs, x ≠ .replaced c rs

/-! ## Graphs of wasm objects -/

/-- Wasm objects that are the same but for their indices and what they refer to. -/
inductive ObjPair (R K : Option Int → Option Int → Prop) (P : Src → Src → Prop) : AObj → AObj → Prop where
  | raw (v : Str) : ObjPair R K P (.raw v) (.raw v)
  | original (v : Str) {i i' k k' : Int} : R (some i) (some i') → K (some k) (some k') →
      ObjPair R K P (.original v i k) (.original v i' k')
  | l2l (v : Str) {i i' k k' : Int} : R (some i) (some i') → K (some k) (some k') →
      ObjPair R K P (.l2l v i k) (.l2l v i' k')
  | sms {s s' : Sms} {d d' : SmData} : s.value = s'.value → R (some s.name) (some s'.name) →
      K (some s.valueIdx) (some s'.valueIdx) → s.map.data = some d → s'.map.data = some d' →
      d.mappings = d'.mappings → (∀ i : Nat, R d.sources[i]? d'.sources[i]?) →
      (∀ i : Nat, K d.contents[i]? d'.contents[i]?) → ObjPair R K P (.sms s) (.sms s')
  | prefixed (p : Str) {y y' : Src} : P y y' → ObjPair R K P (.prefixed p y) (.prefixed p y')
  | replace (cs : List Call) {y y' : Src} : P y y' → ObjPair R K P (.replace y cs) (.replace y' cs)
  | concat {ys ys' : List Src} : ys.length = ys'.length →
      (∀ (k : Nat) (y y' : Src), ys[k]? = some y → ys'[k]? = some y' → P y y') → ObjPair R K P (.concat ys) (.concat ys')

/-- Related references are equal strings or lead to related objects. -/
def Matching (R K : Option Int → Option Int → Prop) (A A' : AHeap) (P : Src → Src → Prop) : Prop :=
  ∀ y y', P y y' → (∃ s, y = .str s ∧ y' = .str s) ∨
    ∃ i i' a a', y = .ref i ∧ y' = .ref i' ∧ A[i]? = some a ∧ A'[i']? = some a' ∧ ObjPair R K P a a'

theorem Sms.Reads.data {s₀ s : Sms} (h : Sms.Reads s₀ s) {d : SmData} (hd : s₀.map.data = some d) :
    s.map.data = some d ∧ s.name = s₀.name ∧ s.valueIdx = s₀.valueIdx := by
  induction h with
  | refl => exact ⟨hd, rfl, rfl⟩
  | @node s s' n _ h ih =>
    obtain ⟨h1, h2, h3⟩ := ih
    unfold Sms.node at h
    split at h
    · cases h
    rename_i g map hg
    obtain ⟨-, hm⟩ := getGen_map hg
    split at h
    · split at h
      · cases h
      · cases h; exact ⟨hm.trans h1, h2, h3⟩
    · split at h
      · cases h
      dsimp only at h
      split at h
      · cases h
      split at h
      · cases h
      · cases h; exact ⟨hm.trans h1, h2, h3⟩
  | @listMap s s' b m _ h ih =>
    obtain ⟨h1, h2, h3⟩ := ih
    unfold Sms.listMap at h
    split at h
    · cases h; exact ⟨h1, h2, h3⟩
    · simp only [SmHolder.getData, h1] at h
      split at h
      · cases h
      · cases h; exact ⟨h1, h2, h3⟩

theorem Tree.Like.of_seen {R K : Option Int → Option Int → Prop} {A A' : AHeap} {P : Src → Src → Prop}
    (M : Matching R K A A' P) {y : Src} {t : Tree} (h : Seen A y t) :
    ∀ y' t', P y y' → Seen A' y' t' → Tree.Like R K t t' := by
  have ref : ∀ {i : Nat} {a : AObj}, A[i]? = some a → ∀ y', P (.ref i) y' →
      ∃ i' a', y' = .ref i' ∧ A'[i']? = some a' ∧ ObjPair R K P a a' := by
    intro i a hA y' hP
    rcases M _ _ hP with ⟨s, h1, -⟩ | ⟨j, j', b, b', h1, h2, h3, h4, h5⟩
    · cases h1
    · cases h1; rw [hA] at h3; cases h3; exact ⟨j', b', h2, h4, h5⟩
  induction h with
  | str s =>
    intro y' t' hP h'
    rcases M _ _ hP with ⟨_, h1, rfl⟩ | ⟨j, j', b, b', h1, _⟩
    · cases h1; cases h'; exact .str s
    · cases h1
  | raw hA =>
    intro y' t' hP h'
    obtain ⟨i', a', rfl, hA', hp⟩ := ref hA y' hP
    cases hp
    cases h' <;> rename_i e <;> (try rename_i e' ; rw [hA'] at e') <;> (try (rw [hA'] at e; cases e)) <;> exact .raw _
  | original hA =>
    intro y' t' hP h'
    obtain ⟨i', a', rfl, hA', hp⟩ := ref hA y' hP
    cases hp with
    | original v h1 h2 =>
      cases h' with
      | original e => rw [hA'] at e; cases e; exact .original _ h1 h2
      | raw e => rw [hA'] at e; cases e
      | l2l e => rw [hA'] at e; cases e
      | sms e => rw [hA'] at e; cases e
      | prefixed e => rw [hA'] at e; cases e
      | replace e => rw [hA'] at e; cases e
      | concat e => rw [hA'] at e; cases e
  | l2l hA =>
    intro y' t' hP h'
    obtain ⟨i', a', rfl, hA', hp⟩ := ref hA y' hP
    cases hp with
    | l2l v h1 h2 =>
      cases h' with
      | l2l e => rw [hA'] at e; cases e; exact .l2l _ h1 h2
      | raw e => rw [hA'] at e; cases e
      | original e => rw [hA'] at e; cases e
      | sms e => rw [hA'] at e; cases e
      | prefixed e => rw [hA'] at e; cases e
      | replace e => rw [hA'] at e; cases e
      | concat e => rw [hA'] at e; cases e
  | sms hA hr =>
    intro y' t' hP h'
    obtain ⟨i', a', rfl, hA', hp⟩ := ref hA y' hP
    cases hp with
    | sms h1 h2 h3 h4 h5 h6 h7 h8 =>
      cases h' with
      | sms e hr' =>
        rw [hA'] at e; cases e
        obtain ⟨a1, a2, a3⟩ := hr.data h4
        obtain ⟨b1, b2, b3⟩ := hr'.data h5
        exact .sms (by rw [hr.value, hr'.value, h1]) (by rw [a2, b2]; exact h2) (by rw [a3, b3]; exact h3) a1 b1 h6 h7 h8
      | raw e => rw [hA'] at e; cases e
      | original e => rw [hA'] at e; cases e
      | l2l e => rw [hA'] at e; cases e
      | prefixed e => rw [hA'] at e; cases e
      | replace e => rw [hA'] at e; cases e
      | concat e => rw [hA'] at e; cases e
  | prefixed hA _ ih =>
    intro y' t' hP h'
    obtain ⟨i', a', rfl, hA', hp⟩ := ref hA y' hP
    cases hp with
    | prefixed p h1 =>
      cases h' with
      | prefixed e h2 => rw [hA'] at e; cases e; exact .prefixed _ (ih _ _ h1 h2)
      | raw e => rw [hA'] at e; cases e
      | original e => rw [hA'] at e; cases e
      | l2l e => rw [hA'] at e; cases e
      | sms e => rw [hA'] at e; cases e
      | replace e => rw [hA'] at e; cases e
      | concat e => rw [hA'] at e; cases e
  | replace hA _ ih =>
    intro y' t' hP h'
    obtain ⟨i', a', rfl, hA', hp⟩ := ref hA y' hP
    cases hp with
    | replace p h1 =>
      cases h' with
      | replace e h2 => rw [hA'] at e; cases e; exact .replace _ (ih _ _ h1 h2)
      | raw e => rw [hA'] at e; cases e
      | original e => rw [hA'] at e; cases e
      | l2l e => rw [hA'] at e; cases e
      | sms e => rw [hA'] at e; cases e
      | prefixed e => rw [hA'] at e; cases e
      | concat e => rw [hA'] at e; cases e
  | @concat i ys ts hA hl _ ih =>
    intro y' t' hP h'
    obtain ⟨i', a', rfl, hA', hp⟩ := ref hA y' hP
    cases hp with
    | @concat ys ys' hlen h1 =>
      cases h' with
      | @concat _ cs ts' e hl' h2 =>
        rw [hA'] at e; cases e
        refine .concat (by omega) fun k t t' e1 e2 => ?_
        have k1 := (List.getElem?_eq_some_iff.1 e1).1
        have k2 := (List.getElem?_eq_some_iff.1 e2).1
        have e3 : ys[k]? = some (ys[k]'(by omega)) := List.getElem?_eq_getElem (by omega)
        have e4 : ys'[k]? = some (ys'[k]'(by omega)) := List.getElem?_eq_getElem (by omega)
        exact ih k _ _ e3 e1 _ _ (h1 k _ _ e3 e4) (h2 k _ _ e4 e2)
      | raw e => rw [hA'] at e; cases e
      | original e => rw [hA'] at e; cases e
      | l2l e => rw [hA'] at e; cases e
      | sms e => rw [hA'] at e; cases e
      | prefixed e => rw [hA'] at e; cases e
      | replace e => rw [hA'] at e; cases e

/-- What can be unfolded there can be unfolded here. -/
theorem Matching.unfolds {R K : Option Int → Option Int → Prop} {A A' : AHeap} {P : Src → Src → Prop}
    (M : Matching R K A A' P) {y : Src} {t : Tree} (h : Unfolds A y t) : ∀ y', P y y' → ∃ t', Unfolds A' y' t' := by
  have ref : ∀ {i : Nat} {a : AObj}, A[i]? = some a → ∀ y', P (.ref i) y' →
      ∃ i' a', y' = .ref i' ∧ A'[i']? = some a' ∧ ObjPair R K P a a' := by
    intro i a hA y' hP
    rcases M _ _ hP with ⟨s, h1, -⟩ | ⟨j, j', b, b', h1, h2, h3, h4, h5⟩
    · cases h1
    · cases h1; rw [hA] at h3; cases h3; exact ⟨j', b', h2, h4, h5⟩
  induction h with
  | str s =>
    intro y' hP
    rcases M _ _ hP with ⟨_, h1, rfl⟩ | ⟨j, j', b, b', h1, _⟩
    · exact ⟨_, .str _⟩
    · cases h1
  | raw hA =>
    intro y' hP
    obtain ⟨i', a', rfl, hA', hp⟩ := ref hA y' hP
    cases hp; exact ⟨_, .raw hA'⟩
  | original hA =>
    intro y' hP
    obtain ⟨i', a', rfl, hA', hp⟩ := ref hA y' hP
    cases hp; exact ⟨_, .original hA'⟩
  | l2l hA =>
    intro y' hP
    obtain ⟨i', a', rfl, hA', hp⟩ := ref hA y' hP
    cases hp; exact ⟨_, .l2l hA'⟩
  | sms hA =>
    intro y' hP
    obtain ⟨i', a', rfl, hA', hp⟩ := ref hA y' hP
    cases hp; exact ⟨_, .sms hA'⟩
  | prefixed hA _ ih =>
    intro y' hP
    obtain ⟨i', a', rfl, hA', hp⟩ := ref hA y' hP
    cases hp with
    | prefixed p h => obtain ⟨t', h⟩ := ih _ h; exact ⟨_, .prefixed hA' h⟩
  | replace hA _ ih =>
    intro y' hP
    obtain ⟨i', a', rfl, hA', hp⟩ := ref hA y' hP
    cases hp with
    | replace p h => obtain ⟨t', h⟩ := ih _ h; exact ⟨_, .replace hA' h⟩
  | @concat i ys ts hA hl _ ih =>
    intro y' hP
    obtain ⟨i', a', rfl, hA', hp⟩ := ref hA y' hP
    cases hp with
    | @concat ys ys' hlen h1 =>
      have each : ∀ k : Nat, k < ys'.length → ∃ t', ∀ y', ys'[k]? = some y' → Unfolds A' y' t' := by
        intro k hk
        have e3 : ys[k]? = some (ys[k]'(by omega)) := List.getElem?_eq_getElem (by omega)
        have e4 : ys'[k]? = some ys'[k] := List.getElem?_eq_getElem hk
        have e5 : ts[k]? = some (ts[k]'(by omega)) := List.getElem?_eq_getElem (by omega)
        obtain ⟨t', h⟩ := ih k _ _ e3 e5 _ (h1 k _ _ e3 e4)
        exact ⟨t', fun y' e => by rw [e4] at e; cases e; exact h⟩
      obtain ⟨ts', h2, h3⟩ := each_exists ys'.length each
      exact ⟨_, .concat hA' h2 fun k c t e1 e2 => h3 k t e2 c e1⟩

/-! ## Programs -/

/-- Indices of the same file. -/
def SrcRel (t t' : StrTable JVal) : Option Int → Option Int → Prop
  | none, none => True
  | some i, some i' => ∃ v, Canon t (· = v) i ∧ Canon t' (· = v) i'
  | _, _ => False

theorem Canon.index {t : StrTable JVal} {v : JVal} {i i' : Int} (h : Canon t (· = v) i) (h' : Canon t (· = v) i') : i = i' := by
  obtain ⟨h0, _, -, rfl, h1⟩ := h
  obtain ⟨h0', _, -, rfl, h1'⟩ := h'
  rw [h1] at h1'
  have := Option.some.inj h1'
  omega

theorem Canon.value {t : StrTable JVal} {v v' : JVal} {i : Int} (h : Canon t (· = v) i) (h' : Canon t (· = v') i) : v = v' := by
  obtain ⟨h0, _, h1, rfl, -⟩ := h
  obtain ⟨h0', _, h1', rfl, -⟩ := h'
  rw [h1] at h1'
  exact Option.some.inj h1'

theorem SrcRel.once (t t' : StrTable JVal) : OneToOne (SrcRel t t') := by
  intro a b a' b' h h'
  cases a <;> cases b <;> cases a' <;> cases b' <;> simp only [SrcRel] at h h' <;>
    first | exact ⟨fun _ => rfl, fun _ => rfl⟩ | (apply iff_of_false <;> (intro hh; cases hh; done)) | skip
  obtain ⟨v, h1, h2⟩ := h
  obtain ⟨v', h1', h2'⟩ := h'
  constructor
  · intro e
    cases e
    have := h1.value h1'
    subst this
    rw [h2.index h2']
  · intro e
    cases e
    have := h2.value h2'
    subst this
    rw [h1.index h1']

/-- Indices of the same content of objects that correspond. -/
def ContRel (m : Nat → Nat → Prop) (L L' : List (List Int)) (t t' : StrTable JVal) : Option Int → Option Int → Prop
  | none, none => True
  | some x, some x' => ∃ (i j k : Nat) (l l' : List Int) (v : JVal), m i j ∧ L[i]? = some l ∧ L'[j]? = some l' ∧ l[k]? = some x ∧ l'[k]? = some x' ∧
      t.Calls x v ∧ t'.Calls x' v
  | _, _ => False

theorem World.Ledger.file {w : World} {ops : List JOp} {L : List (List Int)} (G : w.Ledger (jmade ops) L) {i k : Nat}
    {l : List Int} {x : Int} (h : L[i]? = some l) (hx : l[k]? = some x) : IsFile ops i := by
  have hi : i < (jmade ops).length := by rw [← G.size]; exact (List.getElem?_eq_some_iff.1 h).1
  have e1 : (jmade ops)[i]? = some (jmade ops)[i] := List.getElem?_eq_getElem hi
  have hlen : i < (w.objs.map JObj.ptr).length := by rw [List.length_map, G.len]; exact hi
  obtain ⟨-, h2⟩ := G.each i _ _ _ (List.getElem?_eq_getElem hlen) e1 h
  refine ⟨_, e1, ?_⟩
  have := h2.length
  have hl : 0 < l.length := Nat.lt_of_le_of_lt (Nat.zero_le _) (List.getElem?_eq_some_iff.1 hx).1
  rw [this] at hl
  cases ho : (jmade ops)[i] <;> rw [ho] at hl <;> first | trivial | cases hl

theorem ContRel.once {w w' : World} {ops ops' : List JOp} {L L' : List (List Int)} {m : Nat → Nat → Prop}
    (G : w.Ledger (jmade ops) L) (G' : w'.Ledger (jmade ops') L') (hm : FilesApart m ops) :
    OneToOne (ContRel m L L' w.strs w'.strs) := by
  intro a b a' b' h h'
  cases a <;> cases b <;> cases a' <;> cases b' <;> simp only [ContRel] at h h' <;>
    first | exact ⟨fun _ => rfl, fun _ => rfl⟩ | (apply iff_of_false <;> (intro hh; cases hh; done)) | skip
  obtain ⟨i, j, k, l, l', v, h1, h2, h3, h4, h5, -, -⟩ := h
  obtain ⟨i2, j2, k2, l2, l2', v2, g1, g2, g3, g4, g5, -, -⟩ := h'
  have key := hm i j i2 j2 h1 g1 (G.file h2 h4) (G.file g2 g4)
  constructor
  · intro e
    cases e
    obtain ⟨rfl, rfl⟩ := G.once _ _ _ _ _ _ _ h2 g2 h4 g4
    have := key.1 rfl
    subst this
    rw [h3] at g3; cases g3
    rw [h5] at g5; exact g5
  · intro e
    cases e
    obtain ⟨rfl, rfl⟩ := G'.once _ _ _ _ _ _ _ h3 g3 h5 g5
    have := key.2 rfl
    subst this
    rw [h2] at g2; cases g2
    rw [h4] at g4; exact g4

/-- References to corresponding objects. -/
def RefPair (m : Nat → Nat → Prop) (w w' : World) (y y' : Src) : Prop :=
  ∃ x x', SameArg m x x' ∧ tr (w.objs.map JObj.ptr) x = some y ∧ tr (w'.objs.map JObj.ptr) x' = some y'

theorem lists_rel {t t' : StrTable JVal} {ids ids' : List Int} {ss : List JVal} (h : t.Lists ids ss) (h' : t'.Lists ids' ss)
    (i : Nat) : SrcRel t t' ids[i]? ids'[i]? := by
  by_cases hi : i < ss.length
  · have e1 : ids[i]? = some (ids[i]'(by rw [h.1]; exact hi)) := List.getElem?_eq_getElem _
    have e2 : ids'[i]? = some (ids'[i]'(by rw [h'.1]; exact hi)) := List.getElem?_eq_getElem _
    have e3 : ss[i]? = some ss[i] := List.getElem?_eq_getElem hi
    rw [e1, e2]
    exact ⟨_, h.2 i _ _ e1 e3, h'.2 i _ _ e2 e3⟩
  · rw [List.getElem?_eq_none (by rw [h.1]; omega), List.getElem?_eq_none (by rw [h'.1]; omega)]
    trivial

theorem Each2.imp {α β : Type _} {R S : α → β → Prop} {l : List α} {l' : List β} (h : Each2 R l l')
    (hi : ∀ a b, R a b → S a b) : Each2 S l l' := by
  induction h with
  | nil => exact .nil
  | cons h _ ih => exact .cons (hi _ _ h) ih

theorem Each2.get {α β : Type _} {R : α → β → Prop} {l : List α} {l' : List β} (h : Each2 R l l') {k : Nat} {a : α}
    (e : l[k]? = some a) : ∃ b, l'[k]? = some b ∧ R a b := by
  induction h generalizing k with
  | nil => simp at e
  | cons h _ ih =>
    cases k with
    | zero => cases e; exact ⟨_, rfl, h⟩
    | succ k => exact ih (by simpa using e)

theorem World.matching {w w' : World} {A A' : AHeap} {ops ops' : List JOp} {L L' : List (List Int)} {m : Nat → Nat → Prop}
    (I : w.Inv A (jthings ops)) (I' : w'.Inv A' (jthings ops')) (B : w.Labels (jmade ops)) (B' : w'.Labels (jmade ops'))
    (G : w.Ledger (jmade ops) L) (G' : w'.Ledger (jmade ops') L') (al : Alike m ops ops') :
    Matching (SrcRel w.strs w'.strs) (ContRel m L L' w.strs w'.strs) A A' (RefPair m w w') := by
  rintro y y' ⟨x, x', sx, e, e'⟩
  cases sx with
  | str s => cases e; cases e'; exact .inl ⟨s, rfl, rfl⟩
  | @obj i j hij =>
    right
    have inv : ∀ {v : World} {i : Nat} {y : Src}, tr (v.objs.map JObj.ptr) (.obj i) = some y →
        ∃ o, v.objs[i]? = some o ∧ y = .ref o.ptr := by
      intro v i y e
      simp only [tr, List.getElem?_map, Option.map_map] at e
      cases ho : v.objs[i]? with
      | none => rw [ho] at e; cases e
      | some o => rw [ho] at e; simp at e; exact ⟨o, rfl, e.symm⟩
    obtain ⟨o, ho, rfl⟩ := inv e
    obtain ⟨o', ho', rfl⟩ := inv e'
    have cp := al i j hij
    obtain ⟨x, hx, sim⟩ := I.sim.get' ho
    obtain ⟨x', hx', sim'⟩ := I'.sim.get' ho'
    have hp : (w.objs.map JObj.ptr)[i]? = some o.ptr := by rw [List.getElem?_map, ho]; rfl
    have hp' : (w'.objs.map JObj.ptr)[j]? = some o'.ptr := by rw [List.getElem?_map, ho']; rfl
    rw [hx, hx'] at cp
    generalize hop : (jmade ops)[i]? = mo at cp
    generalize hop' : (jmade ops')[j]? = mo' at cp
    generalize hxx : some x = sx at cp
    generalize hxx' : some x' = sx' at cp
    cases cp with
    | @leaf _ _ op lf =>
      have lb := B.each i o.ptr op hp hop
      have lb' := B'.each j o'.ptr op hp' hop'
      have hi : i < L.length := by rw [G.size]; exact (List.getElem?_eq_some_iff.1 hop).1
      have hj : j < L'.length := by rw [G'.size]; exact (List.getElem?_eq_some_iff.1 hop').1
      have hL : L[i]? = some L[i] := List.getElem?_eq_getElem hi
      have hL' : L'[j]? = some L'[j] := List.getElem?_eq_getElem hj
      obtain ⟨hold, calls⟩ := G.each i o.ptr op _ hp hop hL
      obtain ⟨hold', calls'⟩ := G'.each j o'.ptr op _ hp' hop' hL'
      have D := stepAll_described I.log o.ptr
      have D' := stepAll_described I'.log o'.ptr
      have cont : ∀ (k : Nat) x x', L[i][k]? = some x → L'[j][k]? = some x' →
          ContRel m L L' w.strs w'.strs (some x) (some x') := by
        intro k x x' e1 e2
        obtain ⟨v, g1, g2⟩ := calls.get e1
        obtain ⟨v', g1', g2'⟩ := calls'.get e2
        rw [g1] at g1'; cases g1'
        exact ⟨i, j, k, _, _, v, hij, hL, hL', e1, e2, g2, g2'⟩
      cases op with
      | newRaw v =>
        rw [show (created w.log)[o.ptr]? = _ from lb] at D
        rw [show (created w'.log)[o'.ptr]? = _ from lb'] at D'
        exact ⟨_, _, _, _, rfl, rfl, D, D', .raw v⟩
      | newOriginal v n =>
        obtain ⟨a, b, h1, h2, -⟩ := lb
        obtain ⟨a', b', h1', h2', -⟩ := lb'
        obtain ⟨c, d, h3, h4⟩ := hold
        obtain ⟨c', d', h3', h4'⟩ := hold'
        rw [h1] at h3 D; cases h3
        rw [h1'] at h3' D'; cases h3'
        exact ⟨_, _, _, _, rfl, rfl, D, D', .original v ⟨_, h2, h2'⟩ (cont 0 _ _ (by rw [h4]; rfl) (by rw [h4']; rfl))⟩
      | newL2l v n or =>
        obtain ⟨a, b, h1, h2, -⟩ := lb
        obtain ⟨a', b', h1', h2', -⟩ := lb'
        obtain ⟨c, d, h3, h4⟩ := hold
        obtain ⟨c', d', h3', h4'⟩ := hold'
        rw [h1] at h3 D; cases h3
        rw [h1'] at h3' D'; cases h3'
        exact ⟨_, _, _, _, rfl, rfl, D, D', .l2l v ⟨_, h2, h2'⟩ (cont 0 _ _ (by rw [h4]; rfl) (by rw [h4']; rfl))⟩
      | newSms v n mp or inn =>
        cases mp with
        | emitted k => cases lf
        | plain ss cs ns mp =>
          obtain ⟨vi, ni, hd, o1, in1, h1, h2, h3, -, -⟩ := lb
          obtain ⟨vi', ni', hd', o1', in1', h1', h2', h3', -, -⟩ := lb'
          obtain ⟨_, _, d, _, _, g1, g2⟩ := hold
          obtain ⟨_, _, d', _, _, g1', g2'⟩ := hold'
          rw [h1] at g1 D; cases g1
          rw [h1'] at g1' D'; cases g1'
          have data : ∀ {t : StrTable JVal} {d : SmData}, t.Holds ⟨some d, none⟩ ss cs ns mp → d.mappings = mp ∧ t.Lists d.sources ss := by
            rintro t d ⟨d2, hw, -, k1, k2, -⟩
            rcases hw with hw | ⟨g, hw, -⟩
            · cases hw; exact ⟨k1, k2⟩
            · cases hw
          obtain ⟨a1, a2⟩ := data (h3 ss cs ns mp rfl)
          obtain ⟨b1, b2⟩ := data (h3' ss cs ns mp rfl)
          refine ⟨_, _, _, _, rfl, rfl, D, D', .sms (d := d) (d' := d') rfl ⟨_, h2, h2'⟩
            (cont 0 _ _ (by rw [g2]; rfl) (by rw [g2']; rfl)) rfl rfl (a1.trans b1.symm) (lists_rel a2 b2) ?_⟩
          intro k
          have len : d.contents.length = cs.length := by
            have := calls.length
            rw [g2] at this
            simpa [Spec.JOp.brings] using this
          have len' : d'.contents.length = cs.length := by
            have := calls'.length
            rw [g2'] at this
            simpa [Spec.JOp.brings] using this
          by_cases hk : k < cs.length
          · have e1 : d.contents[k]? = some (d.contents[k]'(by omega)) := List.getElem?_eq_getElem _
            have e2 : d'.contents[k]? = some (d'.contents[k]'(by omega)) := List.getElem?_eq_getElem _
            rw [e1, e2]
            exact cont (k + 1) _ _ (by rw [g2]; simpa using e1) (by rw [g2']; simpa using e2)
          · rw [List.getElem?_eq_none (by omega), List.getElem?_eq_none (by omega)]
            trivial
      | _ => cases lf
    | prefixed h =>
      cases hxx; cases hxx'
      generalize o.kind = kd at sim
      generalize o'.kind = kd' at sim'
      cases sim with
      | prefixed hA hc => cases sim' with
        | prefixed hA' hc' => exact ⟨_, _, _, _, rfl, rfl, hA, hA', .prefixed _ ⟨_, _, h, hc, hc'⟩⟩
    | replaced h =>
      cases hxx; cases hxx'
      generalize o.kind = kd at sim
      generalize o'.kind = kd' at sim'
      cases sim with
      | replaced hA hc => cases sim' with
        | replaced hA' hc' => exact ⟨_, _, _, _, rfl, rfl, hA, hA', .replace _ ⟨_, _, h, hc, hc'⟩⟩
    | @joined _ _ items items' hlen h =>
      cases hxx; cases hxx'
      generalize o.kind = kd at sim
      generalize o'.kind = kd' at sim'
      cases sim with
      | joined hA hc => cases sim' with
        | @joined _ _ is' hA' hc' =>
          have l1 := congrArg List.length hc
          have l2 := congrArg List.length hc'
          simp only [List.length_map] at l1 l2
          refine ⟨_, _, _, _, rfl, rfl, hA, hA', .concat (by omega) fun k y y' e1 e2 => ?_⟩
          have k1 := (List.getElem?_eq_some_iff.1 e1).1
          have e3 : items[k]? = some (items[k]'(by omega)) := List.getElem?_eq_getElem _
          have e4 : items'[k]? = some (items'[k]'(by omega)) := List.getElem?_eq_getElem _
          refine ⟨_, _, h k _ _ e3 e4, ?_, ?_⟩
          · have := congrArg (fun l => l[k]?) hc
            simpa [List.getElem?_map, e3, e1] using this
          · have := congrArg (fun l => l[k]?) hc'
            simpa [List.getElem?_map, e4, e2] using this

/-! ## Emitting and reading -/

/-- What is known of an emitted pair at a later time. -/
theorem World.emit_tells {w w1 w2 : World} {more : List JOp} {j k : Nat} {module_ : Bool}
    (e : (JOp.sourceAndMap j false module_).run w = .ok (.pair k, w1)) (e2 : w1.runFrom more = .ok w2)
    (hg : ∀ op ∈ more, ¬ op.gives k) (hset : ∀ a, .set k a ∉ more) :
    ∃ o sl h', w.objs[j]? = some o ∧ apiListMap w.heap o.ptr false module_ = .ok (sl, h') ∧
      (∃ x, w2.strs.array = w.strs.array ++ x) ∧
      ∀ f, ∃ em, w2.maps[k]? = some em ∧ em.Tells false (slmToStringWithSourceMap sl none).source
        (slmToStringWithSourceMap sl none).map f w2.strs := by
  simp only [JOp.run] at e
  unfold World.emit at e
  split at e
  · cases e
  rename_i o ho
  split at e
  · cases e
  simp only [Bool.false_eq_true, if_false, Except.bind_ok_iff] at e
  obtain ⟨⟨a, w3⟩, h1, h2⟩ := e
  dsimp only at h2
  split at h2
  · rename_i sl
    have hw3 : w3.strs = w.strs := (World.call_strs h1).1
    obtain ⟨h', hn⟩ : ∃ h', apiListMap w.heap o.ptr false module_ = .ok (sl, h') := by
      simp only [World.call, Op.run] at h1
      cases hn : apiListMap w.heap o.ptr false module_ with
      | error e => rw [hn] at h1; cases h1
      | ok p => rw [hn] at h1; simp only [Except.map] at h1; cases h1; exact ⟨_, rfl⟩
    cases h2
    refine ⟨o, sl, h', ho, hn, ?_, fun f => ?_⟩
    · obtain ⟨e', -, he⟩ := (show Lasting (fun t (_ : Emitted) => ∃ x, t.array = w.strs.array ++ x) from
        ⟨fun ⟨r, hr⟩ ⟨x, hx⟩ => ⟨x ++ r, by rw [hr, hx, List.append_assoc]⟩, fun h _ => h⟩).runFrom
          List.getElem?_concat_length ⟨[], by simp [hw3]⟩ (fun ⟨op, h, h'⟩ => absurd h' (hg op h))
          (fun a h => absurd h (hset a)) e2
      exact he
    · exact (Tells.lasting false (slmToStringWithSourceMap sl none).source
        (slmToStringWithSourceMap sl none).map f).runFrom List.getElem?_concat_length
        (Tells.new (wm := ⟨(slmToStringWithSourceMap sl none).source,
          some (slmToStringWithSourceMap sl none).map, none⟩) ⟨_, rfl⟩)
        (fun ⟨op, h, h'⟩ => absurd h' (hg op h)) (fun a h => absurd h (hset a)) e2
  · cases h2

/-- Indices that stand for the same strings read alike. -/
theorem values_like {t t' : StrTable JVal} {ids ids' : List Int}
    (h : Each2 (fun i i' => ∃ v, t.Calls i v ∧ t'.Calls i' v) ids ids') :
    ∃ l, t.values ids = some l ∧ t'.values ids' = some l := by
  have all : (∀ i ∈ ids, t.Has i) ∧ (∀ i ∈ ids', t'.Has i) ∧ ids.map t.name = ids'.map t'.name := by
    induction h with
    | nil => simp
    | cons h _ ih =>
      obtain ⟨v, ⟨h1, h2⟩, h3, h4⟩ := h
      refine ⟨?_, ?_, by simp [h2, h4, ih.2.2]⟩
      · intro i hi
        cases hi with
        | head => exact h1
        | tail _ hi => exact ih.1 i hi
      · intro i hi
        cases hi with
        | head => exact h3
        | tail _ hi => exact ih.2.1 i hi
  exact ⟨_, StrTable.values_get all.1, by rw [StrTable.values_get all.2.1, all.2.2]⟩

/-- Maps that are the same but for the indices read alike. -/
theorem Displays.like {m : Nat → Nat → Prop} {L L' : List (List Int)} {t t' t2 t2' : StrTable JVal} {sl sl' : Slm}
    (h : SlmLike (SrcRel t t') (ContRel m L L' t t') sl sl') (g : ∃ r, t2.array = t.array ++ r)
    (g' : ∃ r, t2'.array = t'.array ++ r) (f : JField) :
    ∃ v, Displays t2 false (slmToStringWithSourceMap sl none).source (slmToStringWithSourceMap sl none).map f v ∧
      Displays t2' false (slmToStringWithSourceMap sl' none).source (slmToStringWithSourceMap sl' none).map f v := by
  obtain ⟨h1, h2, h3, cs, cs', h4, h5, h6⟩ := slmToStringWithSourceMap_like (SrcRel.once t t') h
  have ids : ∃ l, t2.values (slmToStringWithSourceMap sl none).map.sources = some l ∧
      t2'.values (slmToStringWithSourceMap sl' none).map.sources = some l := by
    refine values_like (h3.imp ?_)
    rintro i i' ⟨s, s', hs, rfl, rfl⟩
    cases s <;> cases s' <;> simp only [SrcRel] at hs
    · exact ⟨none, ⟨⟨none, rfl⟩, rfl⟩, ⟨⟨none, rfl⟩, rfl⟩⟩
    · obtain ⟨v, k1, k2⟩ := hs
      exact ⟨v, k1.calls.mono g, k2.calls.mono g'⟩
  have conts : ∃ l, t2.values (slmToStringWithSourceMap sl none).map.sourcesContent = some l ∧
      t2'.values (slmToStringWithSourceMap sl' none).map.sourcesContent = some l := by
    rw [h5, h6]
    clear h5 h6
    refine values_like ?_
    induction h4 with
    | nil => exact .nil
    | @cons a b _ _ hab _ ih =>
      cases a <;> cases b <;> simp only [ContRel] at hab
      · exact ih
      · obtain ⟨_, _, _, _, _, v, -, -, -, -, -, k1, k2⟩ := hab
        exact .cons ⟨v, k1.mono g, k2.mono g'⟩ ih
  cases f with
  | source => exact ⟨_, rfl, by rw [h1]; rfl⟩
  | mappings => exact ⟨_, rfl, by rw [h2]; rfl⟩
  | names => exact ⟨.undefined, by simp [Displays], by simp [Displays]⟩
  | sources =>
    obtain ⟨l, k1, k2⟩ := ids
    exact ⟨_, ⟨l, k1, rfl⟩, l, k2, rfl⟩
  | contents =>
    obtain ⟨l, k1, k2⟩ := conts
    exact ⟨_, ⟨l, k1, rfl⟩, l, k2, rfl⟩

theorem Tree.AllUnwritten.of : ∀ {ts : List Tree}, (∀ t ∈ ts, t.Unwritten) → Tree.AllUnwritten ts
  | [], _ => trivial
  | t :: _, h => ⟨h t (by simp), Tree.AllUnwritten.of fun t ht => h t (by simp [ht])⟩

theorem Seen.unwritten {A : AHeap} {P : Src → Prop} (hc : ∀ i a, P (.ref i) → A[i]? = some a →
      (∀ p c, a ≠ .prefixed p c) ∧ (∀ c cs, a ≠ .replace c cs) ∧ ∀ ys, a = .concat ys → ∀ y ∈ ys, P y)
    {y : Src} {t : Tree} (h : Seen A y t) : P y → t.Unwritten := by
  induction h with
  | str | raw _ | original _ | l2l _ | sms _ _ => intro _; simp [Tree.Unwritten]
  | prefixed hA => intro hy; exact absurd rfl ((hc _ _ hy hA).1 _ _)
  | replace hA => intro hy; exact absurd rfl ((hc _ _ hy hA).2.1 _ _)
  | @concat i ys ts hA hl _ ih =>
    intro hy
    have h := (hc _ _ hy hA).2.2 _ rfl
    have all : ∀ t ∈ ts, t.Unwritten := by
      intro t ht
      obtain ⟨k, hk⟩ := List.getElem?_of_mem ht
      have hk2 := (List.getElem?_eq_some_iff.1 hk).1
      have e : ys[k]? = some (ys[k]'(by omega)) := List.getElem?_eq_getElem _
      exact ih k _ _ e hk (h _ (List.getElem_mem _))
    exact Tree.AllUnwritten.of all

/-- The list maps are the same but for the indices. -/
theorem World.listMaps_like {w w' : World} {A A' : AHeap} {ops ops' : List JOp} {L L' : List (List Int)}
    {m : Nat → Nat → Prop} (I : w.Inv A (jthings ops)) (I' : w'.Inv A' (jthings ops'))
    (B : w.Labels (jmade ops)) (B' : w'.Labels (jmade ops')) (G : w.Ledger (jmade ops) L)
    (G' : w'.Ledger (jmade ops') L') (al : Alike m ops ops') (hm : FilesApart m ops ∨ NoRewriting m ops)
    {j j' : Nat} (hj : m j j') {o o' : JObj} (ho : w.objs[j]? = some o) (ho' : w'.objs[j']? = some o')
    {t t' : Tree} (s : Seen A (.ref o.ptr) t) (s' : Seen A' (.ref o'.ptr) t') (c mod : Bool) :
    ERel (SlmLike (SrcRel w.strs w'.strs) (ContRel m L L' w.strs w'.strs)) (t.listMap c mod) (t'.listMap c mod) := by
  have M := World.matching I I' B B' G G' al
  have P0 : RefPair m w w' (.ref o.ptr) (.ref o'.ptr) := ⟨.obj j, .obj j', .obj hj, tr_obj ho, tr_obj ho'⟩
  refine (Tree.Like.of_seen M s _ _ P0 s').listMap (SrcRel.once _ _) ?_ c mod
  refine hm.imp (ContRel.once G G') fun hn => ?_
  refine Seen.unwritten (P := fun y => ∃ y', RefPair m w w' y y') ?_ s ⟨_, P0⟩
  rintro i a ⟨y', hy⟩ hA
  rcases M _ _ hy with ⟨_, h1, -⟩ | ⟨i1, i', a1, a', h1, h2, h3, h4, h5⟩
  · cases h1
  cases h1
  rw [hA] at h3; cases h3
  obtain ⟨x, x', sx, e, e'⟩ := hy
  cases sx with
  | str s => cases e
  | @obj b b' hb =>
    have ⟨o, ho, hptr⟩ : ∃ o, w.objs[b]? = some o ∧ i = o.ptr := by
      simp only [tr, List.getElem?_map, Option.map_map] at e
      cases ho : w.objs[b]? with
      | none => rw [ho] at e; cases e
      | some o => rw [ho] at e; simp at e; exact ⟨o, rfl, e.symm⟩
    subst hptr
    obtain ⟨x, hx, sim⟩ := I.sim.get' ho
    obtain ⟨n1, n2⟩ := hn b b' x hb hx
    refine ⟨fun p c ha => ?_, fun c cs ha => ?_, fun ys ha y hy => ?_⟩
    · subst ha
      generalize o.kind = kd at sim
      cases sim with
      | leaf _ k1 k2 => rw [hA] at k1; cases k1; cases k2
      | prefixed => exact n1 _ _ rfl
      | replaced k1 => exact n2 _ _ rfl
      | joined k1 => rw [hA] at k1; cases k1
    · subst ha
      generalize o.kind = kd at sim
      cases sim with
      | leaf _ k1 k2 => rw [hA] at k1; cases k1; cases k2
      | prefixed => exact n1 _ _ rfl
      | replaced k1 => exact n2 _ _ rfl
      | joined k1 => rw [hA] at k1; cases k1
    · subst ha
      cases h5 with
      | @concat _ ys' hl h6 =>
        obtain ⟨k, hk⟩ := List.getElem?_of_mem hy
        have hk2 := (List.getElem?_eq_some_iff.1 hk).1
        have e : ys'[k]? = some (ys'[k]'(by omega)) := List.getElem?_eq_getElem _
        exact ⟨_, h6 k _ _ hk e⟩

/-- C70: two programs, each followed by statements that emit the pair and by further ones that do not give or
assign to the pair. -/
theorem C70_partial (ops ops' more more' : List JOp) (w w' w1 w1' w2 w2' : World) (m : Nat → Nat → Prop)
    (j j' k k' : Nat) (module_ : Bool)
    (r : World.run ops = .ok w) (r' : World.run ops' = .ok w')
    (hp : ∀ op ∈ ops, op.Proper) (hp' : ∀ op ∈ ops', op.Proper)
    (al : Alike m ops ops') (hm : FilesApart m ops ∨ NoRewriting m ops) (hj : m j j')
    (e : (JOp.sourceAndMap j false module_).run w = .ok (.pair k, w1)) (e2 : w1.runFrom more = .ok w2)
    (hg : ∀ op ∈ more, ¬ op.gives k) (hset : ∀ a, .set k a ∉ more)
    (e' : (JOp.sourceAndMap j' false module_).run w' = .ok (.pair k', w1')) (e2' : w1'.runFrom more' = .ok w2')
    (hg' : ∀ op ∈ more', ¬ op.gives k') (hset' : ∀ a, .set k' a ∉ more') (f : JField) :
    ∃ v, Reads w2 k f v ∧ Reads w2' k' f v := by
  obtain ⟨A, I⟩ := World.run_inv hp r
  obtain ⟨A', I'⟩ := World.run_inv hp' r'
  obtain ⟨L, G⟩ := World.run_ledger hp r
  obtain ⟨L', G'⟩ := World.run_ledger hp' r'
  obtain ⟨o, sl, h, ho, hl, g, tells⟩ := World.emit_tells e e2 hg hset
  obtain ⟨o', sl', h', ho', hl', g', tells'⟩ := World.emit_tells e' e2' hg' hset'
  obtain ⟨t, s, ht⟩ := hListMap_seen A false module_ _ _ _ _ _ _ I.abs hl
  obtain ⟨t', s', ht'⟩ := hListMap_seen A' false module_ _ _ _ _ _ _ I'.abs hl'
  have like := World.listMaps_like I I' (World.run_labels hp r) (World.run_labels hp' r') G G' al hm hj ho ho' s s'
    false module_
  rw [ht, ht'] at like
  cases like with
  | ok like =>
    obtain ⟨v, d, d'⟩ := Displays.like like g g' f
    obtain ⟨em, k1, k2⟩ := tells f
    obtain ⟨em', k1', k2'⟩ := tells' f
    exact ⟨v, Tells.reads k1 k2 d, Tells.reads k1' k2' d'⟩

theorem emit_not_throwing {w : World} {o : JObj} {j : Nat} {module_ : Bool} {sl : Slm} {h' : Heap}
    (ho : w.objs[j]? = some o) (hl : apiListMap w.heap o.ptr false module_ = .ok (sl, h')) :
    ∃ a w1, (JOp.sourceAndMap j false module_).run w = .ok (a, w1) := by
  simp only [JOp.run, World.emit, ho]
  split
  · exact ⟨_, _, rfl⟩
  · simp only [Bool.false_eq_true, if_false, World.call, Op.run, hl, Except.map, Except.bind]
    exact ⟨_, _, rfl⟩

theorem World.run_stable {ops : List JOp} {w : World} {A : AHeap} (I : w.Inv A (jthings ops)) (r : World.run ops = .ok w)
    (hr : ∀ op ∈ ops, op.PlainMaps) : A.Stable := by
  obtain ⟨-, hlog⟩ := World.run_log r
  refine stable_of_ops I.log fun o ho => ?_
  obtain ⟨op, hop, hof⟩ := hlog o ho
  cases o <;> try trivial
  obtain ⟨-, n, m, o', i, rfl, -, h1⟩ := hof
  obtain ⟨⟨ss, cs, ns, mp, rfl⟩, -⟩ := hr _ hop
  obtain ⟨-, d, hd, -⟩ := h1 ss cs ns mp rfl
  exact .inl (by rw [hd]; rfl)

/-- If the one program hands out a pair the other does not throw. All maps given are ordinary objects. -/
theorem C70_answers (ops ops' : List JOp) (w w' w1 : World) (m : Nat → Nat → Prop)
    (j j' k : Nat) (module_ : Bool)
    (r : World.run ops = .ok w) (r' : World.run ops' = .ok w')
    (hp : ∀ op ∈ ops, op.Proper) (hp' : ∀ op ∈ ops', op.Proper)
    (hr : ∀ op ∈ ops, op.PlainMaps) (hr' : ∀ op ∈ ops', op.PlainMaps)
    (al : Alike m ops ops') (hm : FilesApart m ops ∨ NoRewriting m ops) (hj : m j j') (hj' : j' < (jthings ops').length)
    (e : (JOp.sourceAndMap j false module_).run w = .ok (.pair k, w1)) :
    ∃ a w1', (JOp.sourceAndMap j' false module_).run w' = .ok (a, w1') := by
  obtain ⟨A, I⟩ := World.run_inv hp r
  obtain ⟨A', I'⟩ := World.run_inv hp' r'
  obtain ⟨L, G⟩ := World.run_ledger hp r
  obtain ⟨L', G'⟩ := World.run_ledger hp' r'
  have B := World.run_labels hp r
  have B' := World.run_labels hp' r'
  obtain ⟨o, sl, h, ho, hl, -, -⟩ := World.emit_tells (more := []) (w2 := w1) e rfl (by simp) (by simp)
  have ho' : w'.objs[j']? = some (w'.objs[j']'(by rw [I'.sim.len]; exact hj')) := List.getElem?_eq_getElem _
  obtain ⟨t, u, ht⟩ := (api_listMap_iff (World.run_stable I r hr) I.abs _ _ _ _).1 ⟨h, hl⟩
  have M := World.matching I I' B B' G G' al
  obtain ⟨t', u'⟩ := M.unfolds u _ ⟨.obj j, .obj j', .obj hj, tr_obj ho, tr_obj ho'⟩
  have like := World.listMaps_like I I' B B' G G' al hm hj ho ho' u.seen u'.seen false module_
  rw [ht] at like
  cases hn : t'.listMap false module_ with
  | error x => rw [hn] at like; cases like
  | ok sl' =>
    obtain ⟨h', e'⟩ := (api_listMap_iff (World.run_stable I' r' hr') I'.abs _ _ _ _).2 ⟨t', u', hn⟩
    exact emit_not_throwing ho' e'

/-! ## A program behind another -/

/-- An object made of objects with other numbers. -/
def Spec.JThing.moved (n : Nat) : JThing → JThing
  | .leaf v ex => .leaf v ex
  | .prefixed p c => .prefixed p (JSrc.moved n c)
  | .replaced c rs => .replaced (JSrc.moved n c) rs
  | .joined items => .joined (items.map (JSrc.moved n))

section
variable (q : List JThing) (p : List JThing)

theorem after_get (i : Nat) : (q ++ p.map (JThing.moved q.length))[q.length + i]? = p[i]?.map (JThing.moved q.length) := by
  rw [List.getElem?_append_right (by omega), List.getElem?_map, Nat.add_sub_cancel_left]

theorem after_set (i : Nat) (x : JThing) : (q ++ p.map (JThing.moved q.length)).set (q.length + i) (JThing.moved q.length x) =
    q ++ (p.set i x).map (JThing.moved q.length) := by
  rw [List.set_append_right _ _ (by omega), Nat.add_sub_cancel_left, List.map_set]

theorem after_flat (c : JSrc) : Spec.flat (q ++ p.map (JThing.moved q.length)) (JSrc.moved q.length c) =
    (Spec.flat p c).map (JSrc.moved q.length) := by
  cases c with
  | str s => rfl
  | obj k =>
    simp only [Spec.flat, JSrc.moved, after_get]
    cases p[k]? with
    | none => rfl
    | some x => cases x <;> rfl

theorem after_add (j : Nat) (c : JSrc) : addTo (q ++ p.map (JThing.moved q.length)) (q.length + j) (JSrc.moved q.length c) =
    q ++ (addTo p j c).map (JThing.moved q.length) := by
  simp only [addTo, after_get, after_flat]
  cases p[j]? with
  | none => rfl
  | some x =>
    cases x with
    | joined items =>
      rw [← after_set]
      simp only [Option.map_some, JThing.moved, List.map_append]
    | _ => rfl

theorem after_ask (j : Nat) (r : JRequest) : askTo (q ++ p.map (JThing.moved q.length)) (q.length + j) r =
    q ++ (askTo p j r).map (JThing.moved q.length) := by
  simp only [askTo, after_get]
  cases p[j]? with
  | none => rfl
  | some x =>
    cases x with
    | replaced c rs =>
      rw [← after_set]
      rfl
    | _ => rfl

theorem after_step (k : Nat) (op : JOp) : jstep (q ++ p.map (JThing.moved q.length)) (JOp.moved q.length k op) =
    q ++ (jstep p op).map (JThing.moved q.length) := by
  cases op with
  | newConcat items =>
    have key : ∀ (is : List JSrc) (p' : List JThing),
        (is.map (JSrc.moved q.length)).foldl (fun s i => addTo s (q.length + p.length) i)
          (q ++ p'.map (JThing.moved q.length)) =
        q ++ (is.foldl (fun s i => addTo s p.length i) p').map (JThing.moved q.length) := by
      intro is
      induction is with
      | nil => intro p'; rfl
      | cons i is ih =>
        intro p'
        rw [List.map_cons, List.foldl_cons, List.foldl_cons, after_add, ih]
    have := key items (p ++ [.joined []])
    rw [List.map_append, ← List.append_assoc] at this
    simpa [jstep, JOp.moved, JThing.moved] using this
  | add j c => exact after_add q p j c
  | replace j a b t => exact after_ask q p j _
  | insert j a t => exact after_ask q p j _
  | _ => simp [jstep, JOp.moved, JThing.moved]

end

theorem after_all (q : List JThing) (k : Nat) : ∀ (ops : List JOp) (p : List JThing),
    (ops.map (JOp.moved q.length k)).foldl jstep (q ++ p.map (JThing.moved q.length)) =
      q ++ (ops.foldl jstep p).map (JThing.moved q.length)
  | [], _ => rfl
  | op :: ops, p => by
    rw [List.map_cons, List.foldl_cons, List.foldl_cons, after_step, after_all q k ops]

theorem jthings_behind (before ops : List JOp) (k : Nat) :
    jthings (before ++ ops.map (JOp.moved (jthings before).length k)) =
      jthings before ++ (jthings ops).map (JThing.moved (jthings before).length) := by
  have := after_all (jthings before) k ops []
  simpa [jthings] using this

theorem jmade_behind (before ops : List JOp) (n k : Nat) : jmade (before ++ ops.map (JOp.moved n k)) =
    jmade before ++ (jmade ops).map (JOp.moved n k) := by
  simp only [jmade, List.filter_append, List.filter_map]
  congr 2
  refine List.filter_congr fun op _ => ?_
  cases op <;> rfl

theorem jmade_length (ops : List JOp) : (jmade ops).length = (jthings ops).length := by
  have := (together ops (made := []) (st := []) ⟨rfl, by simp⟩).len
  simpa [jthings] using this

theorem SameArg.moved (n N : Nat) {c : JSrc} (h : ∀ i, c = .obj i → i < N) :
    SameArg (fun i j => j = n + i ∧ i < N) c (JSrc.moved n c) := by
  cases c with
  | str s => exact .str s
  | obj i => exact .obj ⟨rfl, h i rfl⟩

theorem SameArg.moved_of_tr {n : Nat} {ptrs : List Nat} {c : JSrc} {c' : Src} (h : tr ptrs c = some c') :
    SameArg (fun i j => j = n + i ∧ i < ptrs.length) c (JSrc.moved n c) := by
  refine SameArg.moved n _ fun i hi => ?_
  subst hi
  obtain ⟨p, hp, -⟩ := Option.map_eq_some_iff.1 h
  exact (List.getElem?_eq_some_iff.1 hp).1

/-- The objects of a program are those of the same program behind another. -/
theorem Alike.behind {before ops : List JOp} {w : World} {A : AHeap} (I : w.Inv A (jthings ops)) (k : Nat)
    (hr : ∀ op ∈ ops, op.PlainMaps) :
    Alike (fun i j => j = (jthings before).length + i ∧ i < (jthings ops).length) ops
      (before ++ ops.map (JOp.moved (jthings before).length k)) := by
  rintro i j ⟨rfl, hi⟩
  have hx : (jthings ops)[i]? = some (jthings ops)[i] := List.getElem?_eq_getElem hi
  have hop : (jmade ops)[i]? = some ((jmade ops)[i]'(by rw [jmade_length]; exact hi)) := List.getElem?_eq_getElem _
  rw [jthings_behind, jmade_behind, after_get, hx, hop, List.getElem?_append_right (by rw [jmade_length]; omega),
    List.getElem?_map, jmade_length before, Nat.add_sub_cancel_left, hop]
  have T : Together (jmade ops) (jthings ops) := by
    have := together ops (made := []) (st := []) ⟨rfl, by simp⟩
    simpa [jthings] using this
  have mk := T.each i _ _ hop hx
  have hpl := hr _ (List.mem_filter.1 (List.mem_of_getElem? hop)).1
  obtain ⟨o, ho, sim⟩ := I.sim.get hx
  have len : (w.objs.map JObj.ptr).length = (jthings ops).length := by rw [List.length_map, I.sim.len]
  generalize (jmade ops)[i]'(by rw [jmade_length]; exact hi) = op at mk hpl
  generalize (jthings ops)[i] = x at mk sim
  generalize o.kind = kd at sim
  cases sim with
  | leaf =>
    have lf : JOp.Leaf op ∧ JOp.moved (jthings before).length k op = op := by
      cases op <;> first | exact mk.elim | skip
      · exact ⟨trivial, rfl⟩
      · exact ⟨trivial, rfl⟩
      · exact ⟨trivial, rfl⟩
      · rename_i inner
        obtain ⟨⟨ss, cs, ns, mp, rfl⟩, h2⟩ := hpl
        refine ⟨trivial, ?_⟩
        cases inner with
        | none => rfl
        | some i => obtain ⟨_, _, _, _, rfl⟩ := h2 i rfl; rfl
    simp only [Option.map_some, lf.2]
    exact .leaf lf.1
  | prefixed _ hc => exact .prefixed (len ▸ SameArg.moved_of_tr hc)
  | replaced _ hc => exact .replaced (len ▸ SameArg.moved_of_tr hc)
  | @joined _ items is _ hc =>
    refine .joined (by simp) fun b x y h1 h2 => ?_
    rw [List.getElem?_map, h1] at h2
    cases h2
    have := congrArg (fun l => l[b]?) hc
    simp only [List.getElem?_map, h1, Option.map_some] at this
    cases hb : is[b]? with
    | none => rw [hb] at this; cases this
    | some c' =>
      rw [hb] at this
      exact len ▸ SameArg.moved_of_tr (Option.some.inj this)

/-- A program hands out the same pair behind any other program, however the pairs are read. -/
theorem C70_after (before ops more more' : List JOp) (w w' w1 w1' w2 w2' : World) (j k k' n : Nat) (module_ : Bool)
    (r : World.run ops = .ok w)
    (r' : World.run (before ++ ops.map (JOp.moved (jthings before).length n)) = .ok w')
    (hp : ∀ op ∈ before ++ ops, op.Proper) (hr : ∀ op ∈ ops, op.PlainMaps)
    (e : (JOp.sourceAndMap j false module_).run w = .ok (.pair k, w1)) (e2 : w1.runFrom more = .ok w2)
    (hg : ∀ op ∈ more, ¬ op.gives k) (hset : ∀ a, .set k a ∉ more)
    (e' : (JOp.sourceAndMap ((jthings before).length + j) false module_).run w' = .ok (.pair k', w1'))
    (e2' : w1'.runFrom more' = .ok w2')
    (hg' : ∀ op ∈ more', ¬ op.gives k') (hset' : ∀ a, .set k' a ∉ more') (f : JField) :
    ∃ v, Reads w2 k f v ∧ Reads w2' k' f v := by
  have hp1 : ∀ op ∈ ops, op.Proper := fun op h => hp op (by simp [h])
  have hp2 : ∀ op ∈ before ++ ops.map (JOp.moved (jthings before).length n), op.Proper := by
    intro op h
    rcases List.mem_append.1 h with h | h
    · exact hp op (by simp [h])
    · obtain ⟨op, h1, rfl⟩ := List.mem_map.1 h
      have := hp1 op h1
      cases op <;> first | exact this | trivial
  obtain ⟨A, I⟩ := World.run_inv hp1 r
  obtain ⟨o, sl, h, ho, -⟩ := World.emit_tells e e2 hg hset
  refine C70_partial ops _ more more' w w' w1 w1' w2 w2' _ j _ k k' module_ r r' hp1 hp2 (Alike.behind I n hr)
    (.inl ?_) ⟨rfl, by rw [← I.sim.len]; exact (List.getElem?_eq_some_iff.1 ho).1⟩ e e2 hg hset e' e2' hg' hset' f
  rintro a b a' b' ⟨rfl, -⟩ ⟨rfl, -⟩ - -
  omega

/-! ## Why the files must correspond one to one, and why columns are left out -/

/-- What the properties of a pair read as, after a program that ends with the pair's statement. -/
def Spec.shownBy (ops : List JOp) (j : Nat) (columns : Bool) (f : JField) : Option JFieldVal :=
  match World.run ops with
  | .error _ => none
  | .ok w => match (JOp.sourceAndMap j columns true).run w with
    | .ok (.pair k, w1) => match (JOp.get k f).run w1 with
      | .ok (.field v, _) => some v
      | _ => none
    | _ => none

/-- One `OriginalSource` twice in a `PrefixSource`. -/
def c70Shared : List JOp :=
  [.newOriginal "x".toList "a".toList, .newConcat [.obj 0, .obj 0], .newPrefix "> ".toList (.obj 1)]

/-- Two equal `OriginalSource`s in a `PrefixSource`. -/
def c70Copied : List JOp :=
  [.newOriginal "x".toList "a".toList, .newOriginal "x".toList "a".toList, .newConcat [.obj 0, .obj 1],
    .newPrefix "> ".toList (.obj 2)]

/-- The correspondence of the two. -/
def c70Copies (i j : Nat) : Prop := (i, j) ∈ [(0, 0), (0, 1), (1, 2), (2, 3)]

/-- Not in general: copies of an object, in the place of the object itself, can lead to another map. -/
theorem C70_not_general : Alike c70Copies c70Shared c70Copied ∧
    shownBy c70Shared 2 false .mappings = some (.text "AAAA".toList) ∧
    shownBy c70Copied 3 false .mappings = some (.text "AAAA,GAAA".toList) := by
  refine ⟨?_, by decide +kernel, by decide +kernel⟩
  intro i j h
  have t1 : jthings c70Shared = [.leaf "x".toList [], .joined [.obj 0, .obj 0], .prefixed "> ".toList (.obj 1)] := by decide +kernel
  have t2 : jthings c70Copied = [.leaf "x".toList [], .leaf "x".toList [], .joined [.obj 0, .obj 1],
    .prefixed "> ".toList (.obj 2)] := by decide +kernel
  rw [t1, t2]
  simp only [c70Copies, List.mem_cons, Prod.mk.injEq, List.not_mem_nil, or_false] at h
  rcases h with ⟨rfl, rfl⟩ | ⟨rfl, rfl⟩ | ⟨rfl, rfl⟩ | ⟨rfl, rfl⟩
  · exact .leaf (op := .newOriginal "x".toList "a".toList) trivial
  · exact .leaf (op := .newOriginal "x".toList "a".toList) trivial
  · refine .joined rfl fun k a b h1 h2 => ?_
    match k with
    | 0 => cases h1; cases h2; exact .obj (by simp [c70Copies])
    | 1 => cases h1; cases h2; exact .obj (by simp [c70Copies])
    | k + 2 => cases h1
  · exact .prefixed (.obj (by simp [c70Copies]))

/-- Two files side by side, the second one's text replaced. -/
def c70Columns : List JOp :=
  [.newOriginal "a".toList "a".toList, .newOriginal "b".toList "b".toList, .newConcat [.obj 0, .obj 1],
    .newReplace (.obj 2), .replace 3 1 1 "X".toList]

/-- With columns the map depends on what the process did before: an object that is not used any more. -/
theorem C70_not_columns :
    shownBy c70Columns 3 true .mappings = some (.text "AAAA,CCAA".toList) ∧
    shownBy ([.newOriginal "k".toList "b".toList] ++ c70Columns.map (JOp.moved 1 0)) 4 true .mappings =
      some (.text "AAAA,ECAA".toList) := by
  exact ⟨by decide +kernel, by decide +kernel⟩

/-! A case: a program, and the same program behind another that has used its strings in another order. -/

def c70Lines : List JOp :=
  [.newOriginal "a\n".toList "a".toList, .newOriginal "b\nc".toList "b".toList, .newConcat [.obj 0, .obj 1],
    .newReplace (.obj 2), .replace 3 0 0 "X".toList]

def c70Before : List JOp :=
  [.newOriginal "k".toList "b".toList, .newRaw "a".toList, .newConcat [.obj 0, .obj 1], .sourceAndMap 2 false true,
    .get 0 .sources]

example : (∀ op ∈ c70Before ++ c70Lines, op.Proper) ∧ (∀ op ∈ c70Lines, op.PlainMaps) ∧
    shownBy c70Lines 3 false .sources = some (.list [some "a".toList, some "b".toList]) ∧
    shownBy (c70Before ++ c70Lines.map (JOp.moved (jthings c70Before).length 1)) 6 false .sources =
      some (.list [some "a".toList, some "b".toList]) ∧
    shownBy c70Lines 3 false .mappings = some (.text "AAAA;ACAA;AACA".toList) ∧
    shownBy (c70Before ++ c70Lines.map (JOp.moved (jthings c70Before).length 1)) 6 false .mappings =
      some (.text "AAAA;ACAA;AACA".toList) := by
  refine ⟨?_, ?_, by decide +kernel, by decide +kernel, by decide +kernel, by decide +kernel⟩
  · simp [c70Before, c70Lines, JOp.Proper]
    simp only [Spec.Proper]; decide +kernel
  · simp [c70Lines, JOp.PlainMaps]

/-- A case with copies, without the `PrefixSource`. -/
example : Alike (fun i j => (i, j) ∈ [(0, 0), (0, 1), (1, 2)]) (c70Shared.take 2) (c70Copied.take 3) ∧
    NoRewriting (fun i j => (i, j) ∈ [(0, 0), (0, 1), (1, 2)]) (c70Shared.take 2) ∧
    shownBy (c70Shared.take 2) 1 false .mappings = shownBy (c70Copied.take 3) 2 false .mappings ∧
    shownBy (c70Shared.take 2) 1 false .mappings = some (.text "AAAA,CAAA".toList) := by
  have t1 : jthings (c70Shared.take 2) = [.leaf "x".toList [], .joined [.obj 0, .obj 0]] := by decide +kernel
  have t2 : jthings (c70Copied.take 3) = [.leaf "x".toList [], .leaf "x".toList [], .joined [.obj 0, .obj 1]] := by
    decide +kernel
  refine ⟨?_, ?_, by decide +kernel, by decide +kernel⟩
  · intro i j h
    rw [t1, t2]
    simp only [List.mem_cons, Prod.mk.injEq, List.not_mem_nil, or_false] at h
    rcases h with ⟨rfl, rfl⟩ | ⟨rfl, rfl⟩ | ⟨rfl, rfl⟩
    · exact .leaf (op := .newOriginal "x".toList "a".toList) trivial
    · exact .leaf (op := .newOriginal "x".toList "a".toList) trivial
    · refine .joined rfl fun k a b h1 h2 => ?_
      match k with
      | 0 => cases h1; cases h2; exact .obj (by simp)
      | 1 => cases h1; cases h2; exact .obj (by simp)
      | k + 2 => cases h1
  · intro i j x h hx
    rw [t1] at hx
    simp only [List.mem_cons, Prod.mk.injEq, List.not_mem_nil, or_false] at h
    rcases h with ⟨rfl, rfl⟩ | ⟨rfl, rfl⟩ | ⟨rfl, rfl⟩ <;> cases hx <;> exact ⟨nofun, nofun⟩

end WS
