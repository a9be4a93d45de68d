import Verif.Model.Js
/-! # C25 CachedSource returns what the wrapped source returned -/

namespace WS

variable {K : OptKind} {Text Map : Type}

/-- The reads of the wrapped source agree with each other: `sourceAndMap` gives the source and the map,
and options with the same JSON text give the same map. -/
structure Spec.Coherent (w : Wrapped K Text Map) : Prop where
  both : ∀ o, w.sourceAndMap o = (w.source, w.map o)
  key : ∀ o o', K.key o = K.key o' → w.map o = w.map o'

/-- The wrapped source gives for these options, as `CachedSource.map` passes them, the map it gives
without options. -/
def Spec.LikeDefault (w : Wrapped K Text Map) (o : K.Opt) : Prop :=
  w.map o = w.map K.undef ∧ w.map (if K.falsy o then K.empty else o) = w.map K.undef

open Spec

/-- What the cache holds is right. -/
structure Cache.Ok (w : Wrapped K Text Map) (c : Cache Text Map) : Prop where
  source : ∀ s, c.source = some s → s = w.source
  asked : c.asked ≤ 1 ∧ (c.source = none → c.asked = 0)

/-- The cached maps are right. -/
def Cache.MapsOk (w : Wrapped K Text Map) (c : Cache Text Map) : Prop :=
  ∀ o m, c.maps.lookup (K.key o) = some m → m = w.map o

/-- The cached size is right. -/
def Cache.SizeOk (w : Wrapped K Text Map) (c : Cache Text Map) : Prop :=
  ∀ n, c.size = some n → n = w.size

theorem Cache.new_ok (w : Wrapped K Text Map) : (Cache.new : Cache Text Map).Ok w :=
  ⟨fun s h => by simp [Cache.new] at h, by simp [Cache.new], fun _ => rfl⟩

theorem Cache.Ok.step {w : Wrapped K Text Map} (hw : Coherent w) {c : Cache Text Map} (h : c.Ok w)
    (r : CRead K.Opt) : (c.read w r).2.Ok w := by
  obtain ⟨hs, ha, hz⟩ := h
  cases r with
  | source =>
    simp only [Cache.read, Cache.readSource]
    split
    · exact ⟨hs, ha, hz⟩
    · rename_i hn
      exact ⟨fun s e => by cases e; rfl, by simp [hz hn], by simp⟩
  | size =>
    simp only [Cache.read, Cache.readSize]
    split
    · exact ⟨hs, ha, hz⟩
    · split
      · exact ⟨hs, ha, hz⟩
      · exact ⟨hs, ha, hz⟩
  | both o =>
    simp only [Cache.read, Cache.readBoth]
    split
    · exact ⟨hs, ha, hz⟩
    · exact ⟨hs, ha, hz⟩
    · rename_i hn _
      exact ⟨fun s e => by cases e; rfl, by simp [hz hn], by simp⟩
    · refine ⟨fun s e => ?_, ha, by simp⟩
      simp only [hw.both, Option.some.injEq] at e
      exact e.symm
  | map o =>
    simp only [Cache.read, Cache.readMap]
    split
    · exact ⟨hs, ha, hz⟩
    · exact ⟨hs, ha, hz⟩

theorem Cache.Ok.reads {w : Wrapped K Text Map} (hw : Coherent w) (rs : List (CRead K.Opt))
    {c : Cache Text Map} (h : c.Ok w) : (c.reads w rs).Ok w := by
  induction rs generalizing c with
  | nil => exact h
  | cons r rs ih => exact ih (h.step hw r)

/-- The text: after any history of reads with any options, `source()` and the source part of
`sourceAndMap` are those of the wrapped source, and the wrapped `source()` was called at most once. -/
theorem C25_source (w : Wrapped K Text Map) (hw : Coherent w) (rs : List (CRead K.Opt)) :
    (((Cache.new.reads w rs).read w .source).1 = w.read .source) ∧
    (∀ o, ((Cache.new.reads w rs).readBoth w o).1.1 = w.source) ∧
    (Cache.new.reads w rs).asked ≤ 1 := by
  have h := (Cache.new_ok w).reads hw rs
  generalize Cache.new.reads w rs = c at h
  refine ⟨?_, fun o => ?_, h.asked.1⟩
  · simp only [Cache.read, Cache.readSource, Wrapped.read]
    split
    · rename_i s hs; rw [h.source s hs]
    · rfl
  · simp only [Cache.readBoth]
    split
    · rename_i s m hs _; exact h.source _ hs
    · rename_i s hs _; exact h.source _ hs
    · rfl
    · rw [hw.both]

theorem Cache.MapsOk.step {w : Wrapped K Text Map} (hw : Coherent w) {c : Cache Text Map}
    (h : c.MapsOk w) {r : CRead K.Opt} (hr : ∀ o, r = .map o → LikeDefault w o) :
    (c.read w r).2.MapsOk w := by
  have ins : ∀ (o : K.Opt) (m : Map), m = w.map o → ∀ o' m',
      List.lookup (K.key o') ((K.key o, m) :: c.maps) = some m' → m' = w.map o' := by
    intro o m hm o' m' hl
    rw [List.lookup_cons] at hl
    split at hl
    · rename_i he
      cases hl
      rw [hm]
      exact hw.key _ _ (eq_of_beq he).symm
    · exact h o' m' hl
  cases r with
  | source =>
    simp only [Cache.read, Cache.readSource]
    split <;> exact h
  | size =>
    simp only [Cache.read, Cache.readSize]
    split
    · exact h
    · split <;> exact h
  | both o =>
    simp only [Cache.read, Cache.readBoth]
    split
    · exact h
    · exact ins o _ rfl
    · exact h
    · exact ins o _ (by rw [hw.both])
  | map o =>
    simp only [Cache.read, Cache.readMap]
    split
    · exact h
    · exact ins _ _ (hr o rfl).2.symm

/-- The maps: after any history of reads in which `map` was called only with options for which the
wrapped source gives its default map, a further read of that kind gives the map of the wrapped source.
Full statement: for all options in `map` calls; false, see `C25_map_not_general`. -/
theorem C25_map_partial (w : Wrapped K Text Map) (hw : Coherent w) (rs : List (CRead K.Opt))
    (hrs : ∀ o, .map o ∈ rs → LikeDefault w o) :
    (∀ o, ((Cache.new.reads w rs).readBoth w o).1 = w.sourceAndMap o) ∧
    (∀ o, LikeDefault w o → ((Cache.new.reads w rs).read w (.map o)).1 = w.read (.map o)) := by
  have h1 := (Cache.new_ok w).reads hw rs
  have h2 : ∀ (c : Cache Text Map), c.MapsOk w → (c.reads w rs).MapsOk w := by
    clear h1
    induction rs with
    | nil => exact fun c h => h
    | cons r rs ih =>
      intro c h
      exact ih (fun o ho => hrs o (List.mem_cons_of_mem _ ho)) _
        (h.step hw (fun o e => hrs o (by simp [e])))
  have h2 := h2 Cache.new (fun o m e => by simp [Cache.new] at e)
  generalize Cache.new.reads w rs = c at *
  refine ⟨fun o => ?_, fun o ho => ?_⟩
  · rw [hw.both]
    simp only [Cache.readBoth]
    split
    · rename_i s m hs hm; rw [h1.source s hs, h2 o m hm]
    · rename_i s hs _; rw [h1.source s hs]
    · rename_i m _ hm; rw [h2 o m hm]
    · rw [hw.both]
  · simp only [Cache.read, Cache.readMap, Wrapped.read]
    split
    · rename_i m hm; rw [h2 _ m hm, ho.2, ho.1]
    · rw [ho.1]

/-- The size: right after any history if the size of the wrapped source is the `length` of its text.
Full statement: for all texts; false for non-ASCII texts, see `C25_size_not_general`. -/
theorem C25_size_partial (w : Wrapped K Text Map) (hw : Coherent w) (rs : List (CRead K.Opt))
    (hsize : w.size = w.length w.source) :
    ((Cache.new.reads w rs).read w .size).1 = w.read .size := by
  have key : ∀ (rs : List (CRead K.Opt)) (c : Cache Text Map), c.Ok w → c.SizeOk w →
      (c.reads w rs).Ok w ∧ (c.reads w rs).SizeOk w := by
    intro rs
    induction rs with
    | nil => exact fun c h h' => ⟨h, h'⟩
    | cons r rs ih =>
      intro c h h'
      refine ih _ (h.step hw r) ?_
      cases r with
      | source => simp only [Cache.read, Cache.readSource]; split <;> exact h'
      | size =>
        simp only [Cache.read, Cache.readSize]
        split
        · exact h'
        · split
          · rename_i s hs
            intro n hn
            cases hn
            rw [h.source s hs, hsize]
          · intro n hn
            cases hn
            rfl
      | both o => simp only [Cache.read, Cache.readBoth]; split <;> exact h'
      | map o => simp only [Cache.read, Cache.readMap]; split <;> exact h'
  obtain ⟨h1, h2⟩ := key rs Cache.new (Cache.new_ok w) (fun n e => by simp [Cache.new] at e)
  generalize Cache.new.reads w rs = c at *
  simp only [Cache.read, Cache.readSize, Wrapped.read]
  split
  · rename_i n hn; rw [h2 n hn]
  · split
    · rename_i s hs; rw [h1.source s hs, hsize]
    · rfl

/-- With both conditions every read equals the read of the wrapped source, after any history. -/
theorem C25_reads_partial (w : Wrapped K Text Map) (hw : Coherent w) (rs : List (CRead K.Opt))
    (hsize : w.size = w.length w.source) (hrs : ∀ o, .map o ∈ rs → LikeDefault w o)
    (r : CRead K.Opt) (hr : ∀ o, r = .map o → LikeDefault w o) :
    ((Cache.new.reads w rs).read w r).1 = w.read r := by
  cases r with
  | source => exact (C25_source w hw rs).1
  | size => exact C25_size_partial w hw rs hsize
  | both o =>
    have := (C25_map_partial w hw rs hrs).1 o
    simp only [Cache.read, Wrapped.read, this]
  | map o => exact (C25_map_partial w hw rs hrs).2 o (hr o rfl)

/-! ## A concrete source -/

/-- Options as used by webpack: nothing, `{}`, or `{ columns: … }`. -/
inductive ColOpt where
  | undef
  | empty
  | columns (b : Bool)
  deriving DecidableEq, Repr

/-- JSON text of the options. -/
def ColOpt.key : ColOpt → Str
  | .undef => "undefined".toList
  | .empty => "{}".toList
  | .columns true => "{\"columns\":true}".toList
  | .columns false => "{\"columns\":false}".toList

/-- These options. -/
def colKind : OptKind where
  Opt := ColOpt
  undef := .undef
  empty := .empty
  falsy := (· == .undef)
  key := ColOpt.key

theorem ColOpt.key_inj {o o' : ColOpt} (h : o.key = o'.key) : o = o' := by
  rcases o with _ | _ | (_ | _) <;> rcases o' with _ | _ | (_ | _) <;>
    first | rfl | exact absurd h (by decide)

/-- A source over a text as `SourceAndMapMixin.js:45-62` answers: one map for `columns: false`, another
one otherwise; the size in bytes, as `ConcatSource`, `ReplaceSource` and `PrefixSource` give it. -/
def colSource (text : Str) (fine coarse : Nat) : Wrapped colKind Str Nat where
  source := text
  size := blen text
  map := fun (o : ColOpt) => if o = .columns false then coarse else fine
  sourceAndMap := fun (o : ColOpt) => (text, if o = .columns false then coarse else fine)
  length := utf16Len

theorem colSource_coherent (text : Str) (a b : Nat) : Coherent (colSource text a b) := by
  refine ⟨fun _ => rfl, fun o o' h => ?_⟩
  rw [ColOpt.key_inj h]

example : LikeDefault (colSource "ab".toList 1 2) (.columns true) := ⟨rfl, rfl⟩
example : (colSource "ab".toList 1 2).size = (colSource "ab".toList 1 2).length "ab".toList := by
  decide

/-- `map({ columns: false })` gives the column-level map. After it, so does
`sourceAndMap({ columns: false })`, which would have given the line-level map before. -/
theorem C25_map_not_general :
    ((Cache.new).read (colSource "ab".toList 1 2) (.map (.columns false))).1 = .map 1 ∧
    (colSource "ab".toList 1 2).read (.map (.columns false)) = .map 2 ∧
    ((Cache.new).read (colSource "ab".toList 1 2) (.both (.columns false))).1 = .both "ab".toList 2 ∧
    ((Cache.new.reads (colSource "ab".toList 1 2) [.map (.columns false)]).read
      (colSource "ab".toList 1 2) (.both (.columns false))).1 = .both "ab".toList 1 := by
  decide

/-- `size()` of a non-ASCII text depends on whether the text was read before. -/
theorem C25_size_not_general :
    ((Cache.new).read (colSource "é".toList 1 2) .size).1 = .size 2 ∧
    ((Cache.new.reads (colSource "é".toList 1 2) [.source]).read (colSource "é".toList 1 2) .size).1 =
      .size 1 := by
  decide

end WS
