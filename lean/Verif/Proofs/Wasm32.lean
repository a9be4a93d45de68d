import Verif.Model.Wasm32
import Verif.Proofs.NodeLines
import Verif.Proofs.ListText
import Verif.Props.C14
import Verif.Props.C32
import Verif.Props.C42
/-! # When the 32-bit arithmetic does not matter -/

namespace WS
open Spec

theorem i32_id {x : Int} (h : -2147483648 ≤ x) (h' : x < 2147483648) : i32 x = x := by
  unfold i32; omega

theorem usize32_id {n : Nat} (h : n < 4294967296) : usize32 n = n := Nat.mod_eq_of_lt h

/-! ## Given maps -/

/-- Original lines of a read map that do not wrap. -/
def Parsed.Fits (p : Parsed) : Prop := ∀ si ol oc ni, p.original = some (si, ol, oc, ni) → ol < 4294967295

theorem resolveParsed32_eq {ss ns : List Int} {p : Parsed} (h : p.Fits) :
    resolveParsed32 ss ns p = resolveParsed ss ns p := by
  unfold resolveParsed32 resolveParsed
  cases e : p.original with
  | none => rfl
  | some x =>
    obtain ⟨si, ol, oc, ni⟩ := x
    have := h _ _ _ _ e
    dsimp only
    rw [usize32_id (by omega : ol + 1 < 4294967296)]
    rfl

theorem addParsed32_eq {ss ns : List Int} : ∀ {ps : List Parsed} {g : Generator}, (∀ p ∈ ps, p.Fits) →
    addParsed32 ss ns g ps = addParsed ss ns g ps
  | [], _, _ => rfl
  | p :: ps, g, h => by
    rw [addParsed32, addParsed, resolveParsed32_eq (h p (List.mem_cons_self ..))]
    cases resolveParsed ss ns p with
    | error e => rfl
    | ok m => exact addParsed32_eq fun q hq => h q (List.mem_cons_of_mem _ hq)

theorem fromSourceMap32_eq {ss cs ns : List Int} {mp : Str} {file : Option Int} {root : Option Str} {b : Bool}
    (h : ∀ ps, parseMappings mp = some ps → ∀ p ∈ ps, p.Fits) :
    Generator.fromSourceMap32 ss cs mp ns file root b = Generator.fromSourceMap ss cs mp ns file root b := by
  unfold Generator.fromSourceMap32 Generator.fromSourceMap
  dsimp only
  cases e : parseMappings mp with
  | none => rfl
  | some ps => exact addParsed32_eq (h ps e)

/-! ## Nodes of given maps -/

/-- Generated columns that fit an `i32`. -/
def ColsFit (l : List Mapping) : Prop := ∀ m ∈ l, m.generated.2 < 2147483648

theorem skipLines_col (n : Nat) (st : FsState) : (skipLines n st).lastPos.2 = st.lastPos.2 := by
  induction n generalizing st with
  | zero => rfl
  | succ n ih => rw [skipLines]; dsimp only; rw [ih]

theorem fsTail32_eq {st : FsState} {m : Mapping} (hm : m.generated.2 < 2147483648) :
    fsTail32 st m = fsTail st m := by
  unfold fsTail32 fsTail
  rw [i32_id (by omega) (by omega)]
  rfl

theorem fsStep32_eq {st : FsState} {m : Mapping} (hm : m.generated.2 < 2147483648)
    (hst : st.lastPos.2 < 2147483648) : fsStep32 st m = fsStep st m := by
  unfold fsStep32 fsStep
  rw [i32_id (x := (m.generated.2 : Int)) (by omega) (by omega),
    i32_id (x := (st.lastPos.2 : Int)) (by omega) (by omega), i32_id (by omega) (by omega)]
  cases st.lastMapping with
  | none => exact fsTail32_eq hm
  | some lm =>
    dsimp only
    rw [fsTail32_eq hm]
    rfl

theorem fsTail_col {st st' : FsState} {m : Mapping} (hm : m.generated.2 < 2147483648)
    (hst : st.lastPos.2 < 2147483648) (e : fsTail st m = .ok st') : st'.lastPos.2 < 2147483648 := by
  unfold fsTail at e
  dsimp only at e
  split at e
  · split at e
    · cases e
    · cases e; exact hm
  · cases e; rw [skipLines_col]; exact hst

theorem fsStep_col {st st' : FsState} {m : Mapping} (hm : m.generated.2 < 2147483648)
    (hst : st.lastPos.2 < 2147483648) (e : fsStep st m = .ok st') : st'.lastPos.2 < 2147483648 := by
  unfold fsStep at e
  split at e
  · split at e
    · exact fsTail_col hm (by dsimp only; omega) e
    · split at e
      · cases e
      · cases e; exact hm
  · exact fsTail_col hm hst e

theorem fsLoop32_eq : ∀ {l : List Mapping} {st : FsState}, ColsFit l → st.lastPos.2 < 2147483648 →
    fsLoop32 st l = fsLoop st l
  | [], _, _, _ => rfl
  | m :: l, st, h, hst => by
    have hm := h m (List.mem_cons_self ..)
    rw [fsLoop32, fsLoop, fsStep32_eq hm hst]
    cases e : fsStep st m with
    | error e => rfl
    | ok st' => exact fsLoop32_eq (fun x hx => h x (List.mem_cons_of_mem _ hx)) (fsStep_col hm hst e)

theorem fromStringWithGenerator32_eq {code : Str} {g : Generator} (h : ColsFit g.mappings.list) :
    fromStringWithGenerator32 code g = fromStringWithGenerator code g := by
  unfold fromStringWithGenerator32 fromStringWithGenerator
  dsimp only
  rw [fsLoop32_eq h (by dsimp only; omega)]
  rfl

/-! ## Columns in generators -/

theorem ColsFit.addMapping {g : Generator} (h : ColsFit g.mappings.list) {m : Mapping}
    (hm : m.generated.2 < 2147483648) : ColsFit (g.addMapping m).mappings.list := by
  intro x hx
  rw [Generator.addMapping_maps] at hx
  rcases MappingList.add_mem hx with hx | rfl
  · exact h x hx
  · exact hm

theorem ColsFit.setSourceContent {g : Generator} (h : ColsFit g.mappings.list) (s : Int) (c : Option Int) :
    ColsFit (g.setSourceContent s c).mappings.list := by
  intro m hm
  rw [(Generator.setContent_fields g s c).2.2] at hm
  exact h m hm

theorem registerSources_cols {b : Bool} : ∀ {ss cs : List Int} {g : Generator}, ColsFit g.mappings.list →
    ColsFit (registerSources b g ss cs).mappings.list
  | [], _, _, hg => hg
  | s :: ss, cs, g, hg => by
    simp only [registerSources]
    refine registerSources_cols (ColsFit.setSourceContent ?_ _ _)
    split
    · exact hg
    · exact hg

theorem addParsed_cols {ss ns : List Int} : ∀ {ps : List Parsed} {g g' : Generator},
    (∀ p ∈ ps, p.genCol < 2147483648) → ColsFit g.mappings.list → addParsed ss ns g ps = .ok g' →
    ColsFit g'.mappings.list
  | [], _, _, _, hg, e => by cases e; exact hg
  | p :: ps, g, g', hp, hg, e => by
    simp only [addParsed] at e
    split at e
    · cases e
    · rename_i m em
      refine addParsed_cols (fun q hq => hp q (List.mem_cons_of_mem _ hq)) (hg.addMapping ?_) e
      rw [(resolveParsed_gen em)]
      exact hp p (List.mem_cons_self ..)

theorem fromSourceMap_cols {ss cs ns : List Int} {mp : Str} {file : Option Int} {root : Option Str} {b : Bool}
    {g : Generator} (h : ∀ ps, parseMappings mp = some ps → ∀ p ∈ ps, p.genCol < 2147483648)
    (e : Generator.fromSourceMap ss cs mp ns file root b = .ok g) : ColsFit g.mappings.list := by
  simp only [Generator.fromSourceMap] at e
  split at e
  · cases e
  · rename_i ps hp
    exact addParsed_cols (h ps hp) (registerSources_cols (by intro m hm; cases hm)) e

theorem applyOne_gen (file : Option Int) (inner : Generator) (m : Mapping) :
    (applyOne file inner m).1.generated = m.generated := by
  simp only [applyOne]
  split
  · rfl
  · split
    · split <;> rfl
    · rfl

theorem applyLoop_cols {file : Option Int} (l : List Mapping) : ∀ {inner : Generator}, ColsFit l →
    ColsFit (applyLoop file inner l).1 := by
  induction l with
  | nil => intro inner _ m hm; simp [applyLoop] at hm
  | cons m l ih =>
    intro inner hl
    have h2 := ih (inner := (applyOne file inner m).2) (fun x hx => hl x (List.mem_cons_of_mem _ hx))
    simp only [applyLoop]
    intro x hx
    rcases List.mem_cons.1 hx with rfl | hx
    · rw [applyOne_gen]; exact hl m (List.mem_cons_self ..)
    · exact h2 x hx

theorem applySourceMap_cols {g g' inner inner' : Generator} {f : Option Int} (h : ColsFit g.mappings.list)
    (e : g.applySourceMap inner f = .ok (g', inner')) : ColsFit g'.mappings.list := by
  simp only [Generator.applySourceMap] at e
  split at e
  · cases e
  · rename_i file _
    have hl := applyLoop_cols (file := some file) (inner := inner) g.mappings.setUnsorted.list
      (fun m hm => h m hm)
    generalize applyLoop (some file) inner g.mappings.setUnsorted.list = r at e hl
    obtain ⟨list, in'⟩ := r
    dsimp only at e hl
    cases e
    refine foldl_in (P := fun g : Generator => ColsFit g.mappings.list)
      (fun g p hp hg => hg.setSourceContent _ _) ?_
    refine foldl_in (P := fun g : Generator => ColsFit g.mappings.list) (f := Generator.addName) (fun g n hn hg => hg) ?_
    refine foldl_in (P := fun g : Generator => ColsFit g.mappings.list) (f := Generator.addSource) (fun g n hn hg => hg) ?_
    exact hl

/-! ## Replacements -/

/-- Positions of a request that do not wrap. -/
def Repl.Near (r : Repl) : Prop :=
  -1073741824 ≤ r.s / 16 ∧ r.s / 16 < 2147483648 ∧ -1073741824 ≤ r.e / 16 ∧ r.e / 16 < 2147483647

theorem Repl.Near.start {r : Repl} (h : r.Near) : r.start32 = r.start := i32_id (by have := h.1; omega) h.2.1

theorem Repl.Near.stop {r : Repl} (h : r.Near) : r.stop32 = r.stop := by
  obtain ⟨_, _, h3, h4⟩ := h
  unfold Repl.stop32 Repl.stop
  rw [i32_id (x := r.e / 16) (by omega) (by omega), i32_id (by omega) (by omega)]

theorem replLoop32_eq : ∀ {rs : List Repl} {st : List (Str × Bool)}, (∀ r ∈ rs, r.Near) →
    replLoop32 st rs = replLoop st rs
  | [], st, _ => by cases st <;> rfl
  | r :: rs, [], _ => rfl
  | r :: rs, (rem, sbc) :: st, h => by
    have hr := h r (List.mem_cons_self ..)
    have ih : ∀ st, replLoop32 st rs = replLoop st rs := fun st =>
      replLoop32_eq fun x hx => h x (List.mem_cons_of_mem _ hx)
    simp only [replLoop32, replLoop, hr.start, hr.stop, ih]
    rfl

theorem replaceString32_eq {s : Str} {rs : List Repl} (h : ∀ r ∈ rs, r.Near) :
    replaceString32 s rs = replaceString s rs := by
  unfold replaceString32 replaceString; rw [replLoop32_eq h]; rfl

theorem replNodeLoop32_eq : ∀ {rs : List Repl} {st : List SmNode}, (∀ r ∈ rs, r.Near) →
    replNodeLoop32 st rs = replNodeLoop st rs
  | [], st, _ => by cases st <;> rfl
  | r :: rs, [], _ => rfl
  | r :: rs, rem :: st, h => by
    have hr := h r (List.mem_cons_self ..)
    have ih : ∀ st, replNodeLoop32 st rs = replNodeLoop st rs := fun st =>
      replNodeLoop32_eq fun x hx => h x (List.mem_cons_of_mem _ hx)
    simp only [replNodeLoop32, replNodeLoop, hr.start, hr.stop, ih]
    rfl

theorem replaceNode32_eq {n : SmNode} {rs : List Repl} (h : ∀ r ∈ rs, r.Near) :
    replaceNode32 n rs = replaceNode n rs := by
  unfold replaceNode32 replaceNode; rw [replNodeLoop32_eq h]; rfl

/-- State of the rewriting of a list map in which nothing wraps while `k` more characters come. -/
structure RmState.Fits (st : RmState) (k : Nat) : Prop where
  low : 0 ≤ st.cur
  high : st.cur + k ≤ 1073741824
  near : ∀ r ∈ st.pending, r.Near

theorem stepChars_ok {n : Int} {s a b : Str} (h : stepChars n s = .ok (a, b)) :
    a.length + b.length = s.length := by
  unfold stepChars at h
  split at h
  · cases h; simp
  · split at h
    · cases h; simp; omega
    · cases h

theorem stepChars_error {n k j : Int} {s : Str} (h : stepChars n s = .error (k, j)) : j = s.length := by
  unfold stepChars at h
  split at h
  · cases h
  · split at h
    · cases h
    · cases h; rfl

theorem rmLoop32_eq : ∀ {rs : List Repl} {cur : Int} {s : Str} {k : Nat}, 0 ≤ cur →
    cur + s.length + k ≤ 1073741824 → (∀ r ∈ rs, r.Near) →
    rmLoop32 cur s rs = rmLoop cur s rs ∧ (rmLoop cur s rs).2.Fits k
  | [], cur, s, k, h1, h2, h3 => ⟨rfl, ⟨h1, by dsimp only [rmLoop]; omega, h3⟩⟩
  | r :: rs, cur, s, k, h1, h2, h3 => by
    have hr := h3 r (List.mem_cons_self ..)
    have hb := hr
    obtain ⟨b1, b2, b3, b4⟩ := hb
    have e1 : i32 (r.start - cur) = r.start - cur :=
      i32_id (by unfold Repl.start; omega) (by unfold Repl.start; omega)
    rw [rmLoop32, rmLoop, hr.start, hr.stop, e1]
    cases hs : stepChars (r.start - cur) s with
    | error p =>
      obtain ⟨n, j⟩ := p
      have hj := stepChars_error hs
      dsimp only
      rw [i32_id (by omega) (by omega)]
      exact ⟨rfl, ⟨by dsimp only; omega, by dsimp only; omega, h3⟩⟩
    | ok p =>
      obtain ⟨a, b⟩ := p
      have hl := stepChars_ok hs
      dsimp only
      rw [i32_id (x := cur + a.length) (by omega) (by omega),
        i32_id (x := r.stop - (cur + a.length)) (by unfold Repl.stop; omega) (by unfold Repl.stop; omega)]
      cases ht : stepChars (r.stop - (cur + a.length)) b with
      | error p =>
        obtain ⟨n, j⟩ := p
        have hj := stepChars_error ht
        dsimp only
        rw [i32_id (by omega) (by omega)]
        exact ⟨rfl, ⟨by dsimp only; omega, by dsimp only; omega, fun x hx => h3 x (List.mem_cons_of_mem _ hx)⟩⟩
      | ok p =>
        obtain ⟨c, d⟩ := p
        have hm := stepChars_ok ht
        dsimp only
        rw [i32_id (x := cur + a.length + c.length) (by omega) (by omega)]
        obtain ⟨i1, i2⟩ := rmLoop32_eq (rs := rs) (cur := cur + a.length + c.length) (s := d) (k := k)
          (by omega) (by omega) (fun x hx => h3 x (List.mem_cons_of_mem _ hx))
        rw [i1]
        exact ⟨rfl, i2⟩

theorem rmMap32_eq {st : RmState} {code : Str} {k : Nat} (h : st.Fits (code.length + k)) :
    rmMap32 st code = rmMap st code ∧ (rmMap st code).2.Fits k := by
  obtain ⟨h1, h2, h3⟩ := h
  unfold rmMap32 rmMap
  split
  · cases hs : stepChars st.remove code with
    | error p =>
      obtain ⟨n, j⟩ := p
      have hj := stepChars_error hs
      dsimp only
      rw [i32_id (by omega) (by omega)]
      exact ⟨rfl, ⟨by dsimp only; omega, by dsimp only; omega, h3⟩⟩
    | ok p =>
      obtain ⟨a, b⟩ := p
      have hl := stepChars_ok hs
      dsimp only
      rw [i32_id (by omega) (by omega)]
      exact rmLoop32_eq (by omega) (by omega) h3
  · exact rmLoop32_eq h1 (by omega) h3

end WS
