import Verif.Model.Strings
import Verif.Props.C54
import Verif.Props.C46
/-!
# C77: a text that goes into the library comes out the same

Claim: a string handed to wasm and read back is the same string; so `source()` and the `source` of pairs are the
texts that the statements describe.
False for strings that begin with a byte order mark or have an unpaired surrogate, exactly.
-/

namespace WS
open Spec

/-! ## Spec -/

/-- Well-formed UTF-16: surrogates stand in pairs. -/
inductive Spec.Paired : List UInt16 → Prop where
  | nil : Paired []
  | one {u : UInt16} {s : List UInt16} : (u.toNat < 0xD800 ∨ 0xE000 ≤ u.toNat) → Paired s → Paired (u :: s)
  | two {u v : UInt16} {s : List UInt16} : 0xD800 ≤ u.toNat → u.toNat < 0xDC00 → 0xDC00 ≤ v.toNat → v.toNat < 0xE000 →
      Paired s → Paired (u :: v :: s)

/-- The text begins with a byte order mark. -/
def Spec.BeginsWithMark (s : List Char) : Prop := ∃ t, s = Char.ofNat 0xFEFF :: t

/-- What a property of a pair reads as in JavaScript. -/
def Spec.ReadsB (w : World) (k : Nat) (f : JField) (v : JFieldVal) : Prop :=
  ∃ w', (JOp.get k f).runB w = .ok (.field v, w')

/-! ## Bytes -/

theorem enc_eq (s : Str) : (enc s).toByteArray = s.utf8Encode := rfl

theorem enc_mark : String.utf8EncodeChar byteOrderMark = [0xEF, 0xBB, 0xBF] := by decide

theorem decode_enc (s : Str) : (enc s).toByteArray.utf8Decode? = some s.toArray := by
  rw [enc_eq]; exact List.utf8Decode?_utf8Encode

theorem enc_inj {s t : Str} (h : enc s = enc t) : s = t := by
  have := decode_enc s
  rw [h, decode_enc t] at this
  simpa using this.symm

theorem enc_mark_iff {c : Char} {s : Str} {r : List UInt8} (h : enc (c :: s) = 0xEF :: 0xBB :: 0xBF :: r) :
    c = byteOrderMark := by
  have h1 : ((enc (c :: s)).toByteArray).utf8DecodeChar? 0 = some c := by
    have : (enc (c :: s)).toByteArray = [c].utf8Encode ++ s.utf8Encode := by
      rw [enc_eq, ← List.utf8Encode_append]; rfl
    rw [this]
    exact List.utf8DecodeChar?_utf8Encode_singleton_append
  have h2 : ((0xEF :: 0xBB :: 0xBF :: r).toByteArray).utf8DecodeChar? 0 = some byteOrderMark := by
    have : (0xEF :: 0xBB :: 0xBF :: r).toByteArray = [byteOrderMark].utf8Encode ++ r.toByteArray := by
      rw [show (0xEF :: 0xBB :: 0xBF :: r) = String.utf8EncodeChar byteOrderMark ++ r by rw [enc_mark]; rfl,
        List.toByteArray_append, List.utf8Encode_singleton]
    rw [this]
    exact List.utf8DecodeChar?_utf8Encode_singleton_append
  rw [h, h2] at h1
  exact (Option.some.inj h1).symm

/-- The decoder reads a text of wasm without a leading byte order mark. -/
theorem C77_read (t : Str) : getString (enc t) = some (utf16 (readText t)) := by
  unfold getString
  dsimp only
  split
  · rename_i rest h
    cases t with
    | nil => cases h
    | cons c s =>
      obtain rfl := enc_mark_iff h
      have : rest = enc s := by
        have : enc (byteOrderMark :: s) = 0xEF :: 0xBB :: 0xBF :: enc s := by
          show String.utf8EncodeChar byteOrderMark ++ enc s = _
          rw [enc_mark]; rfl
        rw [this] at h
        simpa using h.symm
      rw [this, decode_enc, readText, if_pos rfl]; rfl
  · rename_i h
    have : readText t = t := by
      cases t with
      | nil => rfl
      | cons c s =>
        rw [readText, if_neg]
        rintro rfl
        refine h (enc s) ?_
        show String.utf8EncodeChar byteOrderMark ++ enc s = _
        rw [enc_mark]; rfl
    rw [decode_enc, this]; rfl

/-! ## Units -/

theorem char_range (c : Char) : c.val.toNat < 0xD800 ∨ 0xDFFF < c.val.toNat ∧ c.val.toNat < 0x110000 := c.valid

theorem toNat_ofNat {n : Nat} (h : n < 0xD800 ∨ 0xDFFF < n ∧ n < 0x110000) : (Char.ofNat n).val.toNat = n := by
  have : Nat.isValidChar n := h
  rw [Char.ofNat, dif_pos this]
  simp only [Char.ofNatAux]
  show (UInt32.ofNatLT n _).toNat = n
  simp

theorem char_ext {c d : Char} (h : c.val.toNat = d.val.toNat) : c = d :=
  Char.ext (UInt32.toNat_inj.1 h)

theorem toNat_unit {n : Nat} (h : n < 0x10000) : (UInt16.ofNat n).toNat = n := by
  simp; omega

theorem unit_ext {u v : UInt16} (h : u.toNat = v.toNat) : u = v := UInt16.toNat_inj.1 h

theorem chars_one {u : UInt16} (s : Units) (h : u.toNat < 0xD800 ∨ 0xE000 ≤ u.toNat) :
    Units.chars (u :: s) = Char.ofNat u.toNat :: Units.chars s := by
  have h1 : highSurrogate u = false := by simp [highSurrogate]; omega
  have h2 : lowSurrogate u = false := by simp [lowSurrogate]; omega
  cases s with
  | nil => simp [Units.chars, h1, h2]
  | cons v s => simp [Units.chars, h1, h2]

theorem chars_two {u v : UInt16} (s : Units) (h1 : 0xD800 ≤ u.toNat) (h2 : u.toNat < 0xDC00) (h3 : 0xDC00 ≤ v.toNat)
    (h4 : v.toNat < 0xE000) : Units.chars (u :: v :: s) =
      Char.ofNat (0x10000 + (u.toNat - 0xD800) * 0x400 + (v.toNat - 0xDC00)) :: Units.chars s := by
  have h5 : highSurrogate u = true := by simp [highSurrogate]; omega
  have h6 : lowSurrogate v = true := by simp [lowSurrogate]; omega
  simp [Units.chars, h5, h6]

theorem paired_append {a : Units} (h : Paired a) {b : Units} (hb : Paired b) : Paired (a ++ b) := by
  induction h with
  | nil => exact hb
  | one h _ ih => exact .one h ih
  | two h1 h2 h3 h4 _ ih => exact .two h1 h2 h3 h4 ih

theorem unitsOf_paired (c : Char) : Paired (unitsOf c) := by
  have hc := char_range c
  unfold unitsOf
  split
  · refine .one ?_ .nil
    rw [toNat_unit (by omega)]; omega
  · refine .two ?_ ?_ ?_ ?_ .nil <;> rw [toNat_unit (by omega)] <;> omega

theorem utf16_paired : ∀ s : Str, Paired (utf16 s)
  | [] => .nil
  | c :: s => paired_append (unitsOf_paired c) (utf16_paired s)

theorem chars_unitsOf (c : Char) (r : Units) : Units.chars (unitsOf c ++ r) = c :: Units.chars r := by
  have hc := char_range c
  unfold unitsOf
  split
  · rename_i h
    have e := toNat_unit h
    refine (chars_one r (by rw [e]; omega)).trans ?_
    rw [e, char_ext (toNat_ofNat (n := c.val.toNat) (by omega))]
  · rename_i h
    have e1 := toNat_unit (n := 0xD800 + (c.val.toNat - 0x10000) / 0x400) (by omega)
    have e2 := toNat_unit (n := 0xDC00 + (c.val.toNat - 0x10000) % 0x400) (by omega)
    refine (chars_two r (by rw [e1]; omega) (by rw [e1]; omega) (by rw [e2]; omega) (by rw [e2]; omega)).trans ?_
    rw [e1, e2]
    exact congrArg (· :: Units.chars r) (char_ext ((toNat_ofNat (by omega)).trans (by omega)))

theorem chars_utf16 : ∀ s : Str, Units.chars (utf16 s) = s
  | [] => rfl
  | c :: s => by
    show Units.chars (unitsOf c ++ utf16 s) = _
    rw [chars_unitsOf, chars_utf16 s]

theorem utf16_chars {s : Units} (h : Paired s) : utf16 (Units.chars s) = s := by
  induction h with
  | nil => rfl
  | @one u s h _ ih =>
    have hu := u.toNat_lt
    rw [chars_one s h]
    show unitsOf _ ++ utf16 _ = _
    rw [ih, unitsOf, toNat_ofNat (by omega), if_pos (by omega)]
    exact congrArg (· :: s) (unit_ext (toNat_unit (by omega)))
  | @two u v s h1 h2 h3 h4 _ ih =>
    rw [chars_two s h1 h2 h3 h4]
    show unitsOf _ ++ utf16 _ = _
    rw [ih, unitsOf, toNat_ofNat (by omega), if_neg (by omega)]
    rw [unit_ext (u := UInt16.ofNat (0xD800 + _)) (v := u) ((toNat_unit (by omega)).trans (by omega)),
      unit_ext (u := UInt16.ofNat (0xDC00 + _)) (v := v) ((toNat_unit (by omega)).trans (by omega))]
    rfl

/-- The encoder keeps exactly the well-formed strings. -/
theorem C77_units (s : Units) : utf16 (Units.chars s) = s ↔ Paired s :=
  ⟨fun h => h ▸ utf16_paired _, utf16_chars⟩

theorem readText_eq (t : Str) : readText t = t ↔ ¬ BeginsWithMark t := by
  cases t with
  | nil => simp [readText, BeginsWithMark]
  | cons c s =>
    rw [readText]
    unfold BeginsWithMark
    split
    · rename_i h
      refine ⟨fun e => ?_, fun e => (e ⟨s, by rw [h]; rfl⟩).elim⟩
      have := congrArg List.length e
      simp at this
    · rename_i h
      exact ⟨fun _ ⟨t, e⟩ => h (List.cons.inj e).1, fun _ => rfl⟩

/-- C77 for the bindings, exactly: a string comes back if and only if its surrogates stand in pairs and it does not
begin with a byte order mark. -/
theorem C77_exact (s : Units) : getString (passString s) = some s ↔ Paired s ∧ s.head? ≠ some 0xFEFF := by
  rw [passString, C77_read, Option.some.injEq]
  have head : Paired s → (BeginsWithMark s.chars ↔ s.head? = some 0xFEFF) := by
    intro h
    cases h with
    | nil => simp [Units.chars, BeginsWithMark]
    | @one u s h _ =>
      have hu := u.toNat_lt
      rw [chars_one s h]
      simp only [BeginsWithMark, List.head?_cons, Option.some.injEq]
      constructor
      · rintro ⟨t, e⟩
        have := congrArg (fun c : Char => c.val.toNat) (List.cons.inj e).1
        simp only [toNat_ofNat (n := u.toNat) (by omega), toNat_ofNat (n := 0xFEFF) (by omega)] at this
        exact unit_ext this
      · rintro rfl; exact ⟨_, rfl⟩
    | @two u v s h1 h2 h3 h4 _ =>
      rw [chars_two s h1 h2 h3 h4]
      simp only [BeginsWithMark, List.head?_cons, Option.some.injEq]
      constructor
      · rintro ⟨t, e⟩
        have := congrArg (fun c : Char => c.val.toNat) (List.cons.inj e).1
        rw [toNat_ofNat (by omega), toNat_ofNat (n := 0xFEFF) (by omega)] at this
        omega
      · rintro rfl; exact absurd h2 (by decide)
  constructor
  · intro h
    have hp : Paired s := h ▸ utf16_paired _
    refine ⟨hp, fun hh => ?_⟩
    have hb := (head hp).2 hh
    have e := chars_utf16 (readText s.chars)
    rw [h] at e
    exact (readText_eq _).1 e.symm hb
  · rintro ⟨hp, hh⟩
    rw [(readText_eq _).2 fun hb => hh ((head hp).1 hb)]
    exact utf16_chars hp

/-! ## Programs

The statements of `JsWorld.lean`, which return the texts as wasm has them, and those of `Strings.lean` side by side. -/

/-- Both throw the same, or both return, something related. -/
def Alike (R : α → β → Prop) : Except JErr α → Except JErr β → Prop
  | .ok a, .ok b => R a b
  | .error e, .error e' => e = e'
  | _, _ => False

theorem Alike.bind {R : α → β → Prop} {S : γ → δ → Prop} {x : Except JErr α} {y : Except JErr β}
    {f : α → Except JErr γ} {g : β → Except JErr δ} (h : Alike R x y) (hf : ∀ a b, R a b → Alike S (f a) (g b)) :
    Alike S (x.bind f) (y.bind g) := by
  cases x <;> cases y <;> first | exact h.elim | exact h | exact hf _ _ h

theorem Alike.map {R : α → β → Prop} {S : γ → δ → Prop} {x : Except JErr α} {y : Except JErr β}
    {f : α → γ} {g : β → δ} (h : Alike R x y) (hf : ∀ a b, R a b → S (f a) (g b)) : Alike S (x.map f) (y.map g) := by
  cases x <;> cases y <;> first | exact h.elim | exact h | exact hf _ _ h

/-- The pair is the same but for its text, which was read through the decoder; `assigned` if the program may have
assigned it. -/
structure Emitted.Seen (assigned : Prop) (e e' : Emitted) : Prop where
  wasm : e'.wasm = e.wasm
  sources : e'.sources = e.sources
  contents : e'.contents = e.contents
  mappings : e'.mappings = e.mappings
  names : e'.names = e.names
  hasNames : e'.hasNames = e.hasNames
  modified : e'.modified = e.modified
  source : e'.source = e.source.map readText ∨ assigned ∧ e'.source = e.source

/-- The states are the same but for texts of pairs. -/
structure World.Seen (P : Nat → Prop) (w w' : World) : Prop where
  strs : w'.strs = w.strs
  heap : w'.heap = w.heap
  log : w'.log = w.log
  raws : w'.raws = w.raws
  boots : w'.boots = w.boots
  objs : w'.objs = w.objs
  len : w'.maps.length = w.maps.length
  maps : ∀ (k : Nat) (e e' : Emitted), w.maps[k]? = some e → w'.maps[k]? = some e' → Emitted.Seen (P k) e e'

theorem World.Seen.get {P : Nat → Prop} {w w' : World} (h : World.Seen P w w') (k : Nat) :
    w.maps[k]? = none ∧ w'.maps[k]? = none ∨
      ∃ e e', w.maps[k]? = some e ∧ w'.maps[k]? = some e' ∧ Emitted.Seen (P k) e e' := by
  by_cases hk : k < w.maps.length
  · have h1 : w.maps[k]? = some w.maps[k] := List.getElem?_eq_getElem hk
    have h2 : w'.maps[k]? = some (w'.maps[k]'(by rw [h.len]; exact hk)) := List.getElem?_eq_getElem _
    exact .inr ⟨_, _, h1, h2, h.maps k _ _ h1 h2⟩
  · exact .inl ⟨List.getElem?_eq_none (by omega), List.getElem?_eq_none (by rw [h.len]; omega)⟩

theorem World.Seen.setMap {P : Nat → Prop} {w w' : World} (h : World.Seen P w w') {k : Nat} {e e' : Emitted}
    (he : Emitted.Seen (P k) e e') :
    World.Seen P { w with maps := w.maps.set k e } { w' with maps := w'.maps.set k e' } := by
  refine ⟨h.strs, h.heap, h.log, h.raws, h.boots, h.objs, by simp [h.len], fun i x x' h1 h2 => ?_⟩
  simp only [List.getElem?_set] at h1 h2
  split at h1
  · rename_i hi
    subst hi
    rw [if_pos rfl] at h2
    split at h1
    · split at h2
      · cases h1; cases h2; exact he
      · cases h2
    · cases h1
  · rename_i hi
    rw [if_neg hi] at h2
    exact h.maps i _ _ h1 h2

theorem World.Seen.pushMap {P : Nat → Prop} {w w' u u' : World} (h : World.Seen P w w') (k : World.Seen P u u')
    (e : Emitted) (he : e.source = none) :
    World.Seen P { u with maps := w.maps ++ [e] } { u' with maps := w'.maps ++ [e] } := by
  refine ⟨k.strs, k.heap, k.log, k.raws, k.boots, k.objs, by simp [h.len], fun i x x' h1 h2 => ?_⟩
  simp only [getElem?_snoc, h.len] at h1 h2
  split at h1
  · rename_i hi
    rw [if_pos hi] at h2
    cases h1; cases h2
    exact ⟨rfl, rfl, rfl, rfl, rfl, rfl, rfl, .inl (by rw [he]; rfl)⟩
  · rename_i hi
    rw [if_neg hi] at h2
    exact h.maps i _ _ h1 h2

/-- The states are related, and so are the answers. -/
def Both (P : Nat → Prop) (R : α → β → Prop) (p : α × World) (q : β × World) : Prop := R p.1 q.1 ∧ World.Seen P p.2 q.2

section
variable {P : Nat → Prop} {w w' : World} (h : World.Seen P w w')
include h

theorem seen_call (op : Op) : Alike (Both P Eq) (w.call op) (w'.call op) := by
  unfold World.call
  rw [h.heap, h.log]
  cases op.run w.heap with
  | error e => rfl
  | ok p => exact ⟨rfl, h.strs, rfl, rfl, h.raws, h.boots, h.objs, h.len, h.maps⟩

theorem seen_create (op : Op) (kind : JKind) : Alike (World.Seen P) (w.create op kind) (w'.create op kind) := by
  refine (seen_call h op).map fun a b k => ?_
  rw [h.objs, h.heap]
  exact ⟨k.2.strs, k.2.heap, k.2.log, k.2.raws, k.2.boots, rfl, k.2.len, k.2.maps⟩

theorem seen_src (c : JSrc) : Alike Eq (w.src c) (w'.src c) := by
  cases c with
  | str s => exact rfl
  | obj j =>
    simp only [World.src, h.objs]
    cases w.objs[j]? <;> exact rfl

theorem seen_intern (v : JVal) : (w'.intern v).1 = (w.intern v).1 ∧ World.Seen P (w.intern v).2 (w'.intern v).2 :=
  ⟨by simp only [World.intern, h.strs], by simp only [World.intern, h.strs], h.heap, h.log, h.raws, h.boots, h.objs,
    h.len, h.maps⟩

theorem seen_internNew (v : JVal) :
    (w'.internNew v).1 = (w.internNew v).1 ∧ World.Seen P (w.internNew v).2 (w'.internNew v).2 :=
  ⟨by simp only [World.internNew, h.strs], by simp only [World.internNew, h.strs], h.heap, h.log, h.raws, h.boots,
    h.objs, h.len, h.maps⟩
end

theorem seen_internAll {P : Nat → Prop} : ∀ (l : List JVal) {w w' : World}, World.Seen P w w' →
    (w'.internAll l).1 = (w.internAll l).1 ∧ World.Seen P (w.internAll l).2 (w'.internAll l).2
  | [], _, _, h => ⟨rfl, h⟩
  | v :: l, w, w', h => by
    have h1 := seen_intern h v
    have h2 := seen_internAll l h1.2
    exact ⟨by simp only [World.internAll, h1.1, h2.1], h2.2⟩

theorem seen_internAllNew {P : Nat → Prop} : ∀ (l : List JVal) {w w' : World}, World.Seen P w w' →
    (w'.internAllNew l).1 = (w.internAllNew l).1 ∧ World.Seen P (w.internAllNew l).2 (w'.internAllNew l).2
  | [], _, _, h => ⟨rfl, h⟩
  | v :: l, w, w', h => by
    have h1 := seen_internNew h v
    have h2 := seen_internAllNew l h1.2
    exact ⟨by simp only [World.internAllNew, h1.1, h2.1], h2.2⟩

section
variable {P : Nat → Prop} {w w' : World} (h : World.Seen P w w')
include h

theorem seen_giveData (a b c : List JVal) (m : Str) : (w'.giveData a b c m).1 = (w.giveData a b c m).1 ∧
    World.Seen P (w.giveData a b c m).2 (w'.giveData a b c m).2 := by
  have h1 := seen_internAll a h
  have h2 := seen_internAllNew b h1.2
  have h3 := seen_internAll c h2.2
  exact ⟨by simp only [World.giveData, h1.1, h2.1, h3.1], h3.2⟩

theorem seen_resolve (l : List Int) : w'.resolve l = w.resolve l := by simp only [World.resolve, h.strs]

variable {Q : Prop} {e e' : Emitted} (k : Emitted.Seen Q e e')
include k

omit h in
theorem seen_data : Alike (fun p q => p.1 = q.1 ∧ Emitted.Seen Q p.2 q.2) e.data e'.data := by
  unfold Emitted.data
  rw [k.wasm]
  cases e.wasm with
  | none => exact rfl
  | some wm =>
    dsimp only
    cases wm.getMap with
    | error p => exact rfl
    | ok p => exact ⟨rfl, rfl, k.sources, k.contents, k.mappings, k.names, k.hasNames, k.modified, k.source⟩

theorem alike_refl {x : Except JErr α} : Alike Eq x x := by cases x <;> exact rfl

theorem seen_sources : Alike (fun p q => p.1 = q.1 ∧ Emitted.Seen Q p.2 q.2) (e.getSources w) (e'.getSources w') := by
  unfold Emitted.getSources
  rw [k.sources]
  cases e.sources with
  | some l => exact ⟨rfl, k⟩
  | none =>
    refine (seen_data k).bind fun p q hp => ?_
    rw [seen_resolve h, hp.1]
    refine Alike.map (alike_refl h k) fun a b hab => ?_
    subst hab
    have k := hp.2
    exact ⟨rfl, k.wasm, rfl, k.contents, k.mappings, k.names, k.hasNames, k.modified, k.source⟩

theorem seen_contents : Alike (fun p q => p.1 = q.1 ∧ Emitted.Seen Q p.2 q.2) (e.getContents w) (e'.getContents w') := by
  unfold Emitted.getContents
  rw [k.contents]
  cases e.contents with
  | some l => exact ⟨rfl, k⟩
  | none =>
    refine (seen_data k).bind fun p q hp => ?_
    rw [seen_resolve h, hp.1]
    refine Alike.map (alike_refl h k) fun a b hab => ?_
    subst hab
    have k := hp.2
    exact ⟨rfl, k.wasm, k.sources, rfl, k.mappings, k.names, k.hasNames, k.modified, k.source⟩

omit h in
theorem seen_mappings : Alike (fun p q => p.1 = q.1 ∧ Emitted.Seen Q p.2 q.2) e.getMappings e'.getMappings := by
  unfold Emitted.getMappings
  rw [k.mappings]
  cases e.mappings with
  | some l => exact ⟨rfl, k⟩
  | none =>
    refine (seen_data k).map fun p q hp => ?_
    have k := hp.2
    refine ⟨by rw [hp.1], k.wasm, k.sources, k.contents, by rw [hp.1], k.names, k.hasNames, k.modified, k.source⟩

theorem seen_names : Alike (fun p q => p.1 = q.1 ∧ Emitted.Seen Q p.2 q.2) (e.getNames w) (e'.getNames w') := by
  unfold Emitted.getNames
  rw [k.names, k.hasNames]
  split
  · cases e.names with
    | some l => exact ⟨rfl, k⟩
    | none =>
      refine (seen_data k).bind fun p q hp => ?_
      rw [seen_resolve h, hp.1]
      refine Alike.map (alike_refl h k) fun a b hab => ?_
      subst hab
      have k := hp.2
      exact ⟨rfl, k.wasm, k.sources, k.contents, k.mappings, rfl, k.hasNames, k.modified, k.source⟩
  · exact ⟨rfl, k⟩
end

theorem seen_give {P : Nat → Prop} {w w' : World} (h : World.Seen P w w') (a : MapArg) :
    Alike (Both P Eq) (w.give a) (w'.give a) := by
  cases a with
  | plain ss cs ns m => exact ⟨(seen_giveData h ss cs ns m).1.symm, (seen_giveData h ss cs ns m).2⟩
  | emitted k =>
    simp only [World.give]
    rcases h.get k with ⟨h1, h2⟩ | ⟨e, e', h1, h2, he⟩
    · rw [h1, h2]; exact rfl
    · rw [h1, h2]
      dsimp only
      rw [he.modified, he.wasm]
      cases hc : (if e.modified = true then none else e.wasm) with
      | some wm =>
        refine ⟨rfl, h.setMap ?_⟩
        exact ⟨rfl, he.sources, he.contents, he.mappings, he.names, he.hasNames, rfl, he.source⟩
      | none =>
        refine (seen_sources h he).bind fun a a' ha => ?_
        refine (seen_contents h ha.2).bind fun b b' hb => ?_
        refine (seen_mappings hb.2).bind fun c c' hc => ?_
        refine (seen_names h hc.2).map fun d d' hd => ?_
        rw [← ha.1, ← hb.1, ← hc.1, ← hd.1]
        have := seen_giveData (h.setMap hd.2) a.1 (b.1.getD []) d.1 c.1
        exact ⟨this.1.symm, this.2⟩

theorem seen_giveInner {P : Nat → Prop} {w w' : World} (h : World.Seen P w w') (a : Option MapArg) :
    Alike (Both P Eq) (w.giveInner a) (w'.giveInner a) := by
  cases a with
  | none => exact ⟨rfl, h⟩
  | some a => exact (seen_give h a).map fun a b k => ⟨congrArg some k.1, k.2⟩

theorem seen_addItem {P : Nat → Prop} {w w' : World} (h : World.Seen P w w') (j : Nat) (item : JSrc) :
    Alike (World.Seen P) (w.addItem j item) (w'.addItem j item) := by
  unfold World.addItem
  rw [h.objs]
  split
  · refine (seen_src h item).bind fun a b hab => ?_
    subst hab
    refine (seen_call h _).map fun a b k => ?_
    exact ⟨k.2.strs, k.2.heap, k.2.log, k.2.raws, k.2.boots, rfl, k.2.len, k.2.maps⟩
  · exact rfl

theorem seen_addItems {P : Nat → Prop} (j : Nat) : ∀ (items : List JSrc) {w w' : World}, World.Seen P w w' →
    Alike (World.Seen P) (w.addItems j items) (w'.addItems j items)
  | [], _, _, h => h
  | i :: is, _, _, h => (seen_addItem h j i).bind fun _ _ k => seen_addItems j is k

/-- The text is the same, or it was read through the decoder. -/
def TextSeen (a b : Str) : Prop := b = a ∨ b = readText a

theorem seen_readSource {P : Nat → Prop} {w w' : World} (h : World.Seen P w w') (j : Nat) :
    Alike (Both P fun a b => b = if ((w.objs[j]?).bind fun o => o.kind.value).isSome = true then a else readText a)
      (w.readSource j) (w'.readSourceB j) := by
  unfold World.readSource World.readSourceB
  rw [h.objs]
  cases w.objs[j]? with
  | none => exact rfl
  | some o =>
    dsimp only
    cases hv : o.kind.value with
    | some v => exact ⟨by simp [hv], h⟩
    | none =>
      refine (seen_call h _).bind fun a b k => ?_
      rw [← k.1]
      cases a.1 with
      | text s => exact ⟨by simp [hv], k.2⟩
      | _ => exact rfl

/-- Strings, one by one. -/
def AllSeen (a b : List Str) : Prop := a.length = b.length ∧
  ∀ (i : Nat) (x y : Str), a[i]? = some x → b[i]? = some y → TextSeen x y

theorem AllSeen.refl (a : List Str) : AllSeen a a :=
  ⟨rfl, fun i x y h1 h2 => by rw [h1] at h2; cases h2; exact .inl rfl⟩

theorem AllSeen.append {a b c d : List Str} (h : AllSeen a b) (k : AllSeen c d) : AllSeen (a ++ c) (b ++ d) := by
  refine ⟨by simp [h.1, k.1], fun i x y h1 h2 => ?_⟩
  rw [List.getElem?_append] at h1 h2
  rw [← h.1] at h2
  split at h1
  · rename_i hi
    rw [if_pos hi] at h2; exact h.2 i x y h1 h2
  · rename_i hi
    rw [if_neg hi] at h2; exact k.2 _ x y h1 h2

theorem seen_hashEach {P : Nat → Prop} {f g : World → Nat → Except JErr (List Str × World)}
    (hf : ∀ (w w' : World) (j : Nat), World.Seen P w w' → Alike (Both P AllSeen) (f w j) (g w' j)) :
    ∀ (l : List JSrc) {w w' : World}, World.Seen P w w' →
      Alike (Both P AllSeen) (World.hashEach f w l) (World.hashEach g w' l)
  | [], _, _, h => ⟨.refl [], h⟩
  | .str s :: l, _, _, h => (seen_hashEach hf l h).map fun _ _ k => ⟨AllSeen.append (.refl [s]) k.1, k.2⟩
  | .obj j :: l, _, _, h => (hf _ _ j h).bind fun _ _ k =>
      (seen_hashEach hf l k.2).map fun _ _ k' => ⟨k.1.append k'.1, k'.2⟩

theorem seen_hash {P : Nat → Prop} : ∀ (fuel : Nat) (w w' : World) (j : Nat), World.Seen P w w' →
    Alike (Both P AllSeen) (World.hashObj fuel w j) (World.hashObjB fuel w' j)
  | 0, _, _, _, _ => rfl
  | fuel + 1, w, w', j, h => by
    unfold World.hashObj World.hashObjB
    rw [h.objs]
    cases w.objs[j]? with
    | none => exact rfl
    | some o =>
      dsimp only
      cases o.kind with
      | raw v => exact ⟨.refl _, h⟩
      | original v => exact ⟨.refl _, h⟩
      | l2l v o => exact ⟨.refl _, h⟩
      | sms v o => exact ⟨.refl _, h⟩
      | prefixed pre c =>
        exact (seen_hashEach (fun w w' j k => seen_hash fuel w w' j k) [c] h).map fun _ _ k =>
          ⟨k.1.append (.refl [pre]), k.2⟩
      | replace c =>
        refine (seen_readSource h j).map fun a b k => ⟨⟨rfl, fun i x y h1 h2 => ?_⟩, k.2⟩
        match i with
        | 0 =>
          cases h1; cases h2
          have := k.1
          split at this
          · exact .inl this
          · exact .inr this
        | i + 1 => cases h1
      | concat cs => exact seen_hashEach (fun w w' j k => seen_hash fuel w w' j k) cs h

/-- Answers: texts may have been read through the decoder. -/
def JAnswer.Seen : JAnswer → JAnswer → Prop
  | .text s, .text t => TextSeen s t
  | .chunks l, .chunks m => AllSeen l m
  | .field (.text s), .field (.text t) => TextSeen s t
  | a, b => a = b

theorem JAnswer.Seen.rfl' : ∀ a : JAnswer, JAnswer.Seen a a
  | .text _ => .inl rfl
  | .chunks l => .refl l
  | .field (.text _) => .inl rfl
  | .field (.list _) => rfl
  | .field .undefined => rfl
  | .done => rfl
  | .size _ => rfl
  | .textOnly _ => rfl
  | .pair _ => rfl

theorem seen_emit {P : Nat → Prop} {w w' : World} (h : World.Seen P w w') (j : Nat) (c m : Bool) :
    Alike (Both P JAnswer.Seen) (w.emit j c m) (w'.emit j c m) := by
  unfold World.emit
  rw [h.objs]
  cases w.objs[j]? with
  | none => exact rfl
  | some o =>
    dsimp only
    split
    · exact ⟨rfl, h⟩
    · split
      · refine (seen_call h _).bind fun a b k => ?_
        rw [← k.1]
        cases a.1 with
        | node n =>
          exact ⟨congrArg JAnswer.pair h.len.symm, h.pushMap k.2 _ rfl⟩
        | _ => exact rfl
      · refine (seen_call h _).bind fun a b k => ?_
        rw [← k.1]
        cases a.1 with
        | listMap n => exact ⟨congrArg JAnswer.pair h.len.symm, h.pushMap k.2 _ rfl⟩
        | _ => exact rfl

theorem seen_newRaw {P : Nat → Prop} {w w' : World} (h : World.Seen P w w') (v : Str) :
    Alike (World.Seen P) (w.newRaw v) (w'.newRaw v) := by
  unfold World.newRaw
  rw [h.raws]
  cases w.raws.lookup v with
  | some p => exact ⟨h.strs, h.heap, h.log, rfl, h.boots, by rw [h.objs], h.len, h.maps⟩
  | none =>
    refine (seen_create h _ _).map fun a b k => ?_
    exact ⟨k.strs, k.heap, k.log, by rw [h.heap, k.raws], k.boots, k.objs, k.len, k.maps⟩

theorem seen_newOriginal {P : Nat → Prop} {w w' : World} (h : World.Seen P w w') (v n : Str) :
    Alike (World.Seen P) (w.newOriginal v n) (w'.newOriginal v n) := by
  have h1 := seen_internNew h (some v)
  have h2 := seen_intern h1.2 (some n)
  unfold World.newOriginal
  dsimp only
  rw [h1.1, h2.1, h2.2.boots]
  split
  · split
    · have h := h2.2
      exact ⟨h.strs, h.heap, h.log, h.raws, rfl, by rw [h.objs], h.len, h.maps⟩
    · refine (seen_create h2.2 _ _).map fun a b k => ?_
      exact ⟨k.strs, k.heap, k.log, k.raws, by rw [h2.2.heap, k.boots], k.objs, k.len, k.maps⟩
  · exact seen_create h2.2 _ _

theorem seen_newSms {P : Nat → Prop} {w w' : World} (h : World.Seen P w w') (v n : Str) (m : MapArg)
    (o : Option Str) (i : Option MapArg) : Alike (World.Seen P) (w.newSms v n m o i) (w'.newSms v n m o i) := by
  have h1 := seen_internNew h (some v)
  have h2 := seen_intern h1.2 (some n)
  unfold World.newSms
  dsimp only
  rw [h1.1, h2.1]
  refine (seen_give h2.2 m).bind fun a b k => ?_
  rw [← k.1]
  cases truthy o with
  | none =>
    refine (seen_giveInner k.2 i).bind fun c d l => ?_
    rw [← l.1]
    exact seen_create l.2 _ _
  | some t =>
    have h3 := seen_internNew k.2 (some t)
    refine (seen_giveInner h3.2 i).bind fun c d l => ?_
    rw [← l.1]
    dsimp only
    rw [h3.1]
    exact seen_create l.2 _ _

theorem seen_getSource {Q : Prop} {e e' : Emitted} (k : Emitted.Seen Q e e') :
    Alike (fun p q => (q.1 = readText p.1 ∨ Q ∧ q.1 = p.1) ∧ Emitted.Seen Q p.2 q.2) e.getSource e'.getSourceB := by
  unfold Emitted.getSource Emitted.getSourceB
  rcases k.source with hs | ⟨hq, hs⟩
  · rw [hs, k.wasm]
    cases e.source with
    | some s => exact ⟨.inl rfl, k⟩
    | none =>
      cases e.wasm with
      | none => exact rfl
      | some wm =>
        exact ⟨.inl rfl, rfl, k.sources, k.contents, k.mappings, k.names, k.hasNames, k.modified, .inl rfl⟩
  · rw [hs, k.wasm]
    cases e.source with
    | some s => exact ⟨.inr ⟨hq, rfl⟩, k⟩
    | none =>
      cases e.wasm with
      | none => exact rfl
      | some wm =>
        exact ⟨.inl rfl, rfl, k.sources, k.contents, k.mappings, k.names, k.hasNames, k.modified, .inl rfl⟩

theorem seen_other {P : Nat → Prop} {w w' : World} (h : World.Seen P w w') {Q : Prop} {e e' : Emitted}
    (k : Emitted.Seen Q e e') (f : JField) (hf : f ≠ .source) :
    Alike (fun p q => p.1 = q.1 ∧ Emitted.Seen Q p.2 q.2) (e.get w f) (e'.get w' f) := by
  cases f with
  | source => exact (hf rfl).elim
  | sources => exact (seen_sources h k).map fun a b l => ⟨congrArg JFieldVal.list l.1, l.2⟩
  | contents => exact (seen_contents h k).map fun a b l => ⟨by rw [l.1], l.2⟩
  | mappings => exact (seen_mappings k).map fun a b l => ⟨congrArg JFieldVal.text l.1, l.2⟩
  | names => exact (seen_names h k).map fun a b l => ⟨by rw [l.1, k.hasNames], l.2⟩

theorem seen_set {Q : Prop} {e e' : Emitted} (k : Emitted.Seen Q e e') (a : JAssign) (ha : ∀ s, a = .source s → Q) :
    Emitted.Seen Q (e.set a) (e'.set a) := by
  cases a with
  | source s => exact ⟨k.wasm, k.sources, k.contents, k.mappings, k.names, k.hasNames, k.modified, .inr ⟨ha s rfl, rfl⟩⟩
  | sources l => exact ⟨k.wasm, rfl, k.contents, k.mappings, k.names, k.hasNames, rfl, k.source⟩
  | contents l => exact ⟨k.wasm, k.sources, rfl, k.mappings, k.names, k.hasNames, rfl, k.source⟩
  | mappings s => exact ⟨k.wasm, k.sources, k.contents, rfl, k.names, k.hasNames, rfl, k.source⟩
  | names l =>
    simp only [Emitted.set, k.hasNames]
    split
    · exact ⟨k.wasm, k.sources, k.contents, k.mappings, rfl, rfl, rfl, k.source⟩
    · exact ⟨k.wasm, k.sources, k.contents, k.mappings, rfl, rfl, k.modified, k.source⟩

theorem seen_run {P : Nat → Prop} {w w' : World} (h : World.Seen P w w') (op : JOp)
    (hop : ∀ k s, op = .set k (.source s) → P k) : Alike (Both P JAnswer.Seen) (op.run w) (op.runB w') := by
  have done : ∀ {x y : Except JErr World}, Alike (World.Seen P) x y →
      Alike (Both P JAnswer.Seen) (x.map fun w => (.done, w)) (y.map fun w => (.done, w)) :=
    fun k => k.map fun _ _ k => ⟨rfl, k⟩
  cases op with
  | newRaw v => exact done (seen_newRaw h v)
  | newOriginal v n => exact done (seen_newOriginal h v n)
  | newL2l v n o =>
    have h1 := seen_intern h (some n)
    have h2 := seen_internNew h1.2 (some o)
    simp only [JOp.run, JOp.runB, World.newL2l, h1.1, h2.1]
    exact done (seen_create h2.2 _ _)
  | newSms v n m o i => exact done (seen_newSms h v n m o i)
  | newPrefix p c => exact (seen_src h c).bind fun a b e => by subst e; exact done (seen_create h _ _)
  | newReplace c => exact (seen_src h c).bind fun a b e => by subst e; exact done (seen_create h _ _)
  | newConcat items =>
    simp only [JOp.run, JOp.runB, h.objs]
    exact (seen_create h _ _).bind fun a b k => done (seen_addItems _ items k)
  | add j item => exact done (seen_addItem h j item)
  | replace j a b t =>
    simp only [JOp.run, JOp.runB, h.objs]
    split
    · exact (seen_call h _).map fun _ _ k => ⟨rfl, k.2⟩
    · exact rfl
  | insert j a t =>
    simp only [JOp.run, JOp.runB, h.objs]
    split
    · exact (seen_call h _).map fun _ _ k => ⟨rfl, k.2⟩
    · exact rfl
  | source j =>
    refine (seen_readSource h j).map fun a b k => ⟨?_, k.2⟩
    have := k.1
    split at this
    · exact .inl this
    · exact .inr this
  | size j =>
    simp only [JOp.run, JOp.runB, World.readSize, h.objs]
    refine Alike.map (R := Both P Eq) ?_ fun a b k => ⟨congrArg JAnswer.size k.1, k.2⟩
    cases w.objs[j]? with
    | none => exact rfl
    | some o =>
      dsimp only
      split
      · exact ⟨rfl, h⟩
      · refine (seen_call h _).bind fun a b k => ?_
        rw [← k.1]
        cases a.1 <;> first | exact ⟨rfl, k.2⟩ | exact rfl
  | sourceAndMap j c m => exact seen_emit h j c m
  | hash j =>
    simp only [JOp.run, JOp.runB, h.objs]
    exact (seen_hash _ w w' j h).map fun a b k => ⟨k.1, k.2⟩
  | get k f =>
    rcases h.get k with ⟨h1, h2⟩ | ⟨e, e', h1, h2, he⟩
    · cases f <;> simp only [JOp.run, JOp.runB, h1, h2] <;> exact rfl
    · cases f with
      | source =>
        have mm : ∀ {α β γ : Type} (f : α → β) (g : β → γ) (x : Except JErr α),
            (x.map f).map g = x.map fun a => g (f a) := by intro _ _ _ _ _ x; cases x <;> rfl
        simp only [JOp.run, JOp.runB, h1, h2, Emitted.get, mm]
        refine (seen_getSource he).map fun a b k => ⟨?_, h.setMap k.2⟩
        rcases k.1 with k | k
        · exact .inr k
        · exact .inl k.2
      | sources | contents | mappings | names =>
        simp only [JOp.run, JOp.runB, h1, h2]
        refine (seen_other h he _ (by simp)).map fun a b k => ⟨?_, h.setMap k.2⟩
        rw [← k.1]
        exact JAnswer.Seen.rfl' _
  | set k a =>
    simp only [JOp.run, JOp.runB]
    rcases h.get k with ⟨h1, h2⟩ | ⟨e, e', h1, h2, he⟩
    · rw [h1, h2]; exact rfl
    · rw [h1, h2]
      exact ⟨rfl, h.setMap (seen_set he a fun s e => hop k s (by rw [e]))⟩


theorem seen_runFrom {P : Nat → Prop} : ∀ {ops : List JOp} {w w' : World}, World.Seen P w w' →
    (∀ k s, JOp.set k (.source s) ∈ ops → P k) → Alike (World.Seen P) (w.runFrom ops) (w'.runFromB ops)
  | [], _, _, h, _ => h
  | op :: ops, w, w', h, hp => by
    simp only [World.runFrom, World.runFromB]
    exact (seen_run h op fun k s e => hp k s (by simp [e])).bind fun a b k =>
      seen_runFrom k.2 fun i s hi => hp i s (by simp [hi])

/-- C77, all statements: the program with texts read through the decoder throws where the other one does, and what
it returns is the same up to byte order marks at the beginning of texts. -/
theorem C77_program (ops : List JOp) (op : JOp) :
    (∀ e, World.run ops = .error e ↔ World.runB ops = .error e) ∧
    ∀ w w', World.run ops = .ok w → World.runB ops = .ok w' →
      (∀ e, op.run w = .error e ↔ op.runB w' = .error e) ∧
      ∀ a w1 a' w1', op.run w = .ok (a, w1) → op.runB w' = .ok (a', w1') → JAnswer.Seen a a' := by
  have h : Alike (World.Seen fun _ => True) (World.run ops) (World.runB ops) :=
    seen_runFrom ⟨rfl, rfl, rfl, rfl, rfl, rfl, rfl, fun k e e' h => by simp [World.empty] at h⟩
      fun _ _ _ => trivial
  have errs : ∀ {α β : Type} {R : α → β → Prop} {x : Except JErr α} {y : Except JErr β}, Alike R x y →
      ∀ e, x = .error e ↔ y = .error e := by
    intro α β R x y h e
    cases x <;> cases y
    · cases h; exact ⟨fun h => by cases h; rfl, fun h => by cases h; rfl⟩
    · exact h.elim
    · exact h.elim
    · exact ⟨fun h => (by cases h), fun h => (by cases h)⟩
  refine ⟨errs h, fun w w' e1 e2 => ?_⟩
  rw [e1, e2] at h
  have k := seen_run h op fun _ _ _ => trivial
  refine ⟨errs k, fun a w1 a' w1' r1 r2 => ?_⟩
  rw [r1, r2] at k
  exact k.1

/-- C77 for `source()`: it returns the text that the statements describe, without the leading byte order mark
unless the object keeps its text itself. -/
theorem C77_source (ops : List JOp) (w : World) (hp : ∀ op ∈ ops, op.Proper) (e : World.runB ops = .ok w) (j : Nat)
    (s : Str) : (∃ w', (JOp.source j).runB w = .ok (.text s, w')) ↔
      ∃ t, JText (jthings ops) (.obj j) t ∧
        ((∃ v x, (jthings ops)[j]? = some (.leaf v x)) ∧ s = t ∨
         (¬ ∃ v x, (jthings ops)[j]? = some (.leaf v x)) ∧ s = readText t) := by
  have h : Alike (World.Seen fun _ => True) (World.run ops) (World.runB ops) :=
    seen_runFrom ⟨rfl, rfl, rfl, rfl, rfl, rfl, rfl, fun k e e' h => by simp [World.empty] at h⟩
      fun _ _ _ => trivial
  rw [e] at h
  cases hr : World.run ops with
  | error x => rw [hr] at h; exact h.elim
  | ok w0 =>
    rw [hr] at h
    obtain ⟨A, I⟩ := World.run_inv hp hr
    have hleaf : (∃ v x, (jthings ops)[j]? = some (.leaf v x)) ∧ (∃ o v, w0.objs[j]? = some o ∧ o.kind.value = some v) ∨
        (¬ ∃ v x, (jthings ops)[j]? = some (.leaf v x)) ∧ ((w0.objs[j]?).bind fun o => o.kind.value) = none := by
      cases ho : w0.objs[j]? with
      | none =>
        refine .inr ⟨?_, rfl⟩
        rintro ⟨v, x, hx⟩
        obtain ⟨o, ho', -⟩ := I.sim.get hx
        rw [ho] at ho'; cases ho'
      | some o =>
        obtain ⟨x, hx, hs⟩ := I.sim.get' ho
        rw [hx]
        generalize hk : o.kind = kd at hs
        cases hs with
        | leaf hv _ _ => exact .inl ⟨⟨_, _, rfl⟩, o, _, rfl, by rw [hk]; exact hv⟩
        | prefixed => exact .inr ⟨fun ⟨v, x, e⟩ => (by cases e), by simp [hk, JKind.value]⟩
        | replaced => exact .inr ⟨fun ⟨v, x, e⟩ => (by cases e), by simp [hk, JKind.value]⟩
        | joined => exact .inr ⟨fun ⟨v, x, e⟩ => (by cases e), by simp [hk, JKind.value]⟩
    have k := seen_readSource h j
    have iff : (∃ w', (JOp.source j).runB w = .ok (.text s, w')) ↔ ∃ w', w.readSourceB j = .ok (s, w') := by
      simp only [JOp.runB]
      cases w.readSourceB j with
      | error e => exact ⟨fun ⟨_, h⟩ => (by cases h), fun ⟨_, h⟩ => (by cases h)⟩
      | ok p => exact ⟨fun ⟨_, h⟩ => (by cases h; exact ⟨_, rfl⟩), fun ⟨_, h⟩ => (by cases h; exact ⟨_, rfl⟩)⟩
    rw [iff]
    constructor
    · rintro ⟨w', hb⟩
      rw [hb] at k
      cases hs : w0.readSource j with
      | error x => rw [hs] at k; exact k.elim
      | ok p =>
        rw [hs] at k
        refine ⟨p.1, (C46_source ops w0 hp hr j p.1).1 ⟨p.2, hs⟩, ?_⟩
        have k1 := k.1
        rcases hleaf with ⟨h1, o, v, h2, h3⟩ | ⟨h1, h2⟩
        · rw [h2] at k1
          exact .inl ⟨h1, by simpa [h3] using k1⟩
        · rw [h2] at k1
          exact .inr ⟨h1, by simpa using k1⟩
    · rintro ⟨t, ht, hs⟩
      obtain ⟨w1, h1⟩ := (C46_source ops w0 hp hr j t).2 ht
      rw [h1] at k
      cases hb : w.readSourceB j with
      | error x => rw [hb] at k; exact k.elim
      | ok p =>
        rw [hb] at k
        have k1 := k.1
        refine ⟨p.2, ?_⟩
        rcases hleaf with ⟨g1, o, v, h2, h3⟩ | ⟨g1, h2⟩
        · rw [h2] at k1
          rcases hs with ⟨-, rfl⟩ | ⟨g, -⟩
          · have : p.1 = s := by simpa [h3] using k1
            rw [← this]
          · exact (g g1).elim
        · rw [h2] at k1
          rcases hs with ⟨g, -⟩ | ⟨-, rfl⟩
          · exact (g1 g).elim
          · have : p.1 = readText t := by simpa using k1
            rw [← this]

/-- C77 for `source()`, exactly: what is returned is the text described if and only if the object keeps its text
itself or the text does not begin with a byte order mark. -/
theorem C77_source_exact (ops : List JOp) (w : World) (hp : ∀ op ∈ ops, op.Proper) (e : World.runB ops = .ok w)
    (j : Nat) (t : Str) (ht : JText (jthings ops) (.obj j) t) :
    (∃ w', (JOp.source j).runB w = .ok (.text t, w')) ↔
      (∃ v x, (jthings ops)[j]? = some (.leaf v x)) ∨ ¬ BeginsWithMark t := by
  rw [C77_source ops w hp e j t]
  have h : Alike (World.Seen fun _ => True) (World.run ops) (World.runB ops) :=
    seen_runFrom ⟨rfl, rfl, rfl, rfl, rfl, rfl, rfl, fun k e e' h => by simp [World.empty] at h⟩
      fun _ _ _ => trivial
  rw [e] at h
  cases hr : World.run ops with
  | error x => rw [hr] at h; exact h.elim
  | ok w0 =>
    constructor
    · rintro ⟨u, hu, ⟨hl, -⟩ | ⟨hl, he⟩⟩
      · exact .inl hl
      · have := C46_unique ops w0 hp hr j _ _ ht hu
        subst this
        exact .inr ((readText_eq t).1 he.symm)
    · intro hh
      by_cases hl : ∃ v x, (jthings ops)[j]? = some (.leaf v x)
      · exact ⟨t, ht, .inl ⟨hl, rfl⟩⟩
      · refine ⟨t, ht, .inr ⟨hl, ?_⟩⟩
        rcases hh with hh | hh
        · exact (hl hh).elim
        · exact ((readText_eq t).2 hh).symm

/-- C77 for pairs: their text reads without the leading byte order mark, everything else reads as it is, however
the program goes on, unless it assigns the text. -/
theorem C77_pair (ops : List JOp) (w w' : World) (k : Nat) (r : World.run ops = .ok w) (r' : World.runB ops = .ok w')
    (hset : ∀ s, JOp.set k (.source s) ∉ ops) :
    (∀ s, ReadsB w' k .source (.text s) ↔ ∃ t, Reads w k .source (.text t) ∧ s = readText t) ∧
    ∀ f v, f ≠ .source → (ReadsB w' k f v ↔ Reads w k f v) := by
  have h : Alike (World.Seen fun k => ∃ s, JOp.set k (.source s) ∈ ops) (World.run ops) (World.runB ops) :=
    seen_runFrom ⟨rfl, rfl, rfl, rfl, rfl, rfl, rfl, fun k e e' h => by simp [World.empty] at h⟩
      fun k s h => ⟨s, h⟩
  rw [r, r'] at h
  rcases h.get k with ⟨h1, h2⟩ | ⟨e, e', h1, h2, he⟩
  · refine ⟨fun s => ⟨?_, ?_⟩, fun f v hf => ⟨?_, ?_⟩⟩
    · rintro ⟨x, hx⟩; simp [JOp.runB, h2] at hx
    · rintro ⟨t, ⟨x, hx⟩, -⟩; simp [JOp.run, h1] at hx
    · rintro ⟨x, hx⟩; cases f <;> first | exact (hf rfl).elim | simp [JOp.runB, JOp.run, h2] at hx
    · rintro ⟨x, hx⟩; simp [JOp.run, h1] at hx
  · refine ⟨fun s => ?_, fun f v hf => ?_⟩
    · have k1 := seen_getSource he
      simp only [ReadsB, Reads, JOp.run, JOp.runB, h1, h2, Emitted.get]
      cases g1 : e.getSource with
      | error x =>
        cases g2 : e'.getSourceB with
        | error y => exact ⟨fun ⟨_, h⟩ => (by cases h), fun ⟨_, ⟨_, h⟩, _⟩ => (by cases h)⟩
        | ok y => rw [g1, g2] at k1; exact k1.elim
      | ok x =>
        cases g2 : e'.getSourceB with
        | error y => rw [g1, g2] at k1; exact k1.elim
        | ok y =>
          rw [g1, g2] at k1
          have k2 : y.1 = readText x.1 := by
            rcases k1.1 with h | ⟨⟨s, h⟩, -⟩
            · exact h
            · exact (hset s h).elim
          constructor
          · rintro ⟨z, hz⟩; cases hz; exact ⟨x.1, ⟨_, rfl⟩, k2⟩
          · rintro ⟨t, ⟨z, hz⟩, rfl⟩; cases hz; exact ⟨_, by rw [← k2]; rfl⟩
    · have k1 := seen_other h he f hf
      have hB : (JOp.get k f).runB w' = (JOp.get k f).run w' := by
        cases f <;> first | exact (hf rfl).elim | rfl
      simp only [ReadsB, Reads, hB]
      simp only [JOp.run, h1, h2]
      cases g1 : e.get w f with
      | error x =>
        cases g2 : e'.get w' f with
        | error y => exact ⟨fun ⟨_, h⟩ => (by cases h), fun ⟨_, h⟩ => (by cases h)⟩
        | ok y => rw [g1, g2] at k1; exact k1.elim
      | ok x =>
        cases g2 : e'.get w' f with
        | error y => rw [g1, g2] at k1; exact k1.elim
        | ok y =>
          rw [g1, g2] at k1
          constructor
          · rintro ⟨z, hz⟩; cases hz; exact ⟨_, by rw [← k1.1]; rfl⟩
          · rintro ⟨z, hz⟩; cases hz; exact ⟨_, by rw [k1.1]; rfl⟩

/-! ## Mappings -/

/-- All characters are ASCII. -/
def Spec.Ascii (s : List Char) : Prop := ∀ c ∈ s, c.toNat < 128

theorem Spec.Ascii.append {s t : List Char} (h : Ascii s) (k : Ascii t) : Ascii (s ++ t) := by
  intro c hc
  rcases List.mem_append.1 hc with hc | hc
  · exact h c hc
  · exact k c hc

theorem Spec.Ascii.rep {s : List Char} (h : Ascii s) (n : Nat) : Ascii (List.replicate n s).flatten := by
  intro c hc
  obtain ⟨l, hl, hc⟩ := List.mem_flatten.1 hc
  rw [(List.mem_replicate.1 hl).2] at hc
  exact h c hc

theorem Spec.Ascii.same {c : Char} (h : c.toNat < 128) (n : Nat) : Ascii (List.replicate n c) := by
  intro d hd
  rw [(List.mem_replicate.1 hd).2]
  exact h

theorem Spec.Ascii.nil : Ascii [] := by simp [Ascii]

theorem b64Char_ascii (n : Nat) : (b64Char n).toNat < 128 := by
  have small : ∀ k, k < 128 → (Char.ofNat k).toNat < 128 := by
    intro k hk
    have := toNat_ofNat (n := k) (by omega)
    show (Char.ofNat k).val.toNat < 128
    omega
  unfold b64Char
  split
  · exact small _ (by omega)
  · split
    · exact small _ (by omega)
    · split
      · exact small _ (by omega)
      · split <;> decide

theorem vlqDigits_ascii : ∀ f u, Ascii (vlqDigits f u)
  | 0, u => by
    intro c hc
    simp only [vlqDigits, List.mem_singleton] at hc
    rw [hc]; exact b64Char_ascii _
  | f + 1, u => by
    intro c hc
    simp only [vlqDigits] at hc
    split at hc
    · rw [List.mem_singleton.1 hc]; exact b64Char_ascii _
    · rcases List.mem_cons.1 hc with hc | hc
      · rw [hc]; exact b64Char_ascii _
      · exact vlqDigits_ascii f _ c hc

theorem vlqEncode_ascii (v : Int) : Ascii (vlqEncode v) := vlqDigits_ascii _ _

theorem serLoop_ascii {S N : List (Int × Nat)} : ∀ {l : List Mapping} {b : Bool} {st : SerState} {s : Str},
    serLoop S N b st l = .ok s → Ascii s
  | [], b, st, s, h => by cases h; exact .nil
  | m :: l, b, st, s, h => by
    simp only [serLoop] at h
    split at h
    · cases h
    · rename_i sep st1 e1
      split at h
      · cases h
      · rename_i fs st2 e2
        split at h
        · cases h
        · rename_i rest e3
          cases h
          refine ((?_ : Ascii sep).append ?_).append (serLoop_ascii e3)
          · unfold serSep at e1
            split at e1
            · split at e1
              · cases e1
              · cases e1; exact .same (by decide) _
            · cases e1
              split
              · intro c hc; rw [List.mem_singleton.1 hc]; decide
              · exact .nil
          · unfold serFields at e2
            dsimp only at e2
            split at e2
            · cases e2; exact vlqEncode_ascii _
            · split at e2
              · cases e2
              · split at e2
                · cases e2
                · split at e2
                  · cases e2
                    exact (((vlqEncode_ascii _).append (vlqEncode_ascii _)).append (vlqEncode_ascii _)).append
                      (vlqEncode_ascii _)
                  · split at e2
                    · cases e2
                    · cases e2
                      exact ((((vlqEncode_ascii _).append (vlqEncode_ascii _)).append (vlqEncode_ascii _)).append
                        (vlqEncode_ascii _)).append (vlqEncode_ascii _)

theorem headSeg_ascii (c : MapCtx) (i l : Nat) : Ascii (headSeg c i l) := by
  have hA : Ascii ['A'] := fun c hc => by rw [List.mem_singleton.1 hc]; decide
  unfold headSeg
  refine ((Ascii.append ?_ (vlqEncode_ascii _)).append (vlqEncode_ascii _)).append hA
  split
  · exact Ascii.append (s := [',']) (fun c hc => by rw [List.mem_singleton.1 hc]; decide) (vlqEncode_ascii _)
  · exact hA

theorem slmMappings_ascii : ∀ (l : Slm) (c : MapCtx), Ascii (slmMappings c l).1
  | [], _ => .nil
  | n :: l, c => by
    have hA : Ascii ['A'] := fun c hc => by rw [List.mem_singleton.1 hc]; decide
    have hs : Ascii [';'] := fun c hc => by rw [List.mem_singleton.1 hc]; decide
    have hn : Ascii nextLineSeg := by unfold Ascii nextLineSeg; decide
    have hm : Ascii sameLineSeg := by unfold Ascii sameLineSeg; decide
    simp only [slmMappings]
    refine Ascii.append ?_ (slmMappings_ascii l _)
    cases n with
    | source n =>
      simp only [LNode.mappings, LSource.mappings]
      split
      · exact .nil
      · refine ((headSeg_ascii _ _ _).append (hn.rep _)).append ?_
        split
        · exact hs
        · split
          · exact hn
          · exact .nil
    | single n =>
      simp only [LNode.mappings, LSingle.mappings]
      split
      · exact .nil
      · refine ((headSeg_ascii _ _ _).append (hm.rep _)).append ?_
        split
        · exact hs
        · split
          · exact hm
          · exact .nil
    | code s =>
      simp only [LNode.mappings, codeMappings]
      split
      · refine (Ascii.same (by decide) _).append ?_
        split
        · exact hA
        · exact .nil
      · dsimp only
        split
        · exact hA
        · exact .nil
    | str _ | map _ | idx _ => exact .nil

theorem Spec.Ascii.unmarked {s : List Char} (h : Ascii s) : ¬ BeginsWithMark s := by
  rintro ⟨t, rfl⟩
  exact absurd (h _ (List.mem_cons_self ..)) (by decide)

/-- C77 for `mappings`: maps that the library makes have no byte order mark to lose. -/
theorem C77_mappings : (∀ (g g' : Generator) m, g.toSourceMap = .ok (m, g') → readText m.mappings = m.mappings) ∧
    ∀ (l : Slm) file, readText (slmToStringWithSourceMap l file).map.mappings =
      (slmToStringWithSourceMap l file).map.mappings := by
  refine ⟨fun g g' m h => ?_, fun l file => ?_⟩
  · unfold Generator.toSourceMap Generator.serializeMappings at h
    dsimp only at h
    split at h
    · cases h
    · rename_i e
      split at e
      · cases e
        cases h
        rename_i e
        exact (readText_eq _).2 (serLoop_ascii e).unmarked
      · cases e
  · exact (readText_eq _).2 (slmMappings_ascii l MapCtx.new).unmarked

/-! ## Examples -/

/-- `new ConcatSource("\uFEFFa", "\uFEFFb").source()` is `"a\uFEFFb"`; `new RawSource("\uFEFFa").source()` is
`"\uFEFFa"`. -/
theorem C77_not_general :
    ((World.runB [.newConcat [.str [byteOrderMark, 'a'], .str [byteOrderMark, 'b']]]).toOption.bind
      fun w => ((JOp.source 0).runB w).toOption.map (·.1)) = some (.text ['a', byteOrderMark, 'b']) ∧
    ((World.runB [.newRaw [byteOrderMark, 'a']]).toOption.bind
      fun w => ((JOp.source 0).runB w).toOption.map (·.1)) = some (.text [byteOrderMark, 'a']) := by
  decide +kernel

/-- `new OriginalSource("\uFEFFa;b", "f").sourceAndMap()`: the text has lost its mark, but the map counts it: its
second segment begins with `G`, column 3, and `b` is at column 2. -/
theorem C77_columns_off :
    ((World.runB [.newOriginal [byteOrderMark, 'a', ';', 'b'] ['f'], .sourceAndMap 0 true true]).toOption.bind
      fun w => ((JOp.get 0 .source).runB w).toOption.map (·.1)) = some (.field (.text ['a', ';', 'b'])) ∧
    ((World.runB [.newOriginal [byteOrderMark, 'a', ';', 'b'] ['f'], .sourceAndMap 0 true true]).toOption.bind
      fun w => ((JOp.get 0 .mappings).runB w).toOption.map (·.1)) =
        some (.field (.text "AAAA,GAAK".toList)) := by
  decide +kernel

/-- An unpaired surrogate comes back as U+FFFD; a pair, here between two letters, as it is. -/
example : getString (passString [0xD800]) = some [0xFFFD] ∧
    getString (passString [0x61, 0xD83D, 0xDE00, 0x62]) = some [0x61, 0xD83D, 0xDE00, 0x62] ∧
    getString (passString [0xFEFF, 0xFEFF, 0x62]) = some [0xFEFF, 0x62] := by
  refine ⟨?_, ?_, ?_⟩
  · have : passString [0xD800] = enc [replacementChar] := rfl
    rw [this, C77_read]; decide
  · exact (C77_exact _).2 ⟨.one (by decide) (.two (by decide) (by decide) (by decide) (by decide)
      (.one (by decide) .nil)), by decide⟩
  · have : passString [0xFEFF, 0xFEFF, 0x62] = enc [byteOrderMark, byteOrderMark, 'b'] := by decide
    rw [this, C77_read]; decide

/-- A program as in `C77_source` and `C77_pair`: a `PrefixSource` around an `OriginalSource` with a mark, whose text
then begins with the prefix. -/
example : let ops : List JOp := [.newOriginal [byteOrderMark, 'a'] ['f'], .newPrefix ['/'] (.obj 0),
      .sourceAndMap 1 true true]
    (∀ op ∈ ops, op.Proper) ∧
    ((World.runB ops).toOption.bind fun w => ((JOp.source 1).runB w).toOption.map (·.1)) =
      some (.text ['/', byteOrderMark, 'a']) := by
  intro ops
  refine ⟨by simp [ops, JOp.Proper], by decide +kernel⟩

end WS
