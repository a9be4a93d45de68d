import Verif.Model.Slice
import Verif.Proofs.FromString
/-! # Slices and the texts they designate -/

namespace WS

theorem splitAtByte_append : ∀ (a b : Str), splitAtByte (a ++ b) (blen a) = some (a, b)
  | [], b => by cases b <;> rfl
  | c :: a, b => by
    have hc := c.utf8Size_pos
    obtain ⟨k, hk⟩ : ∃ k, blen (c :: a) = k + 1 := ⟨blen (c :: a) - 1, by rw [blen_cons]; omega⟩
    rw [List.cons_append, hk, splitAtByte, ← hk, blen_cons, if_pos (by omega), Nat.add_sub_cancel_left,
      splitAtByte_append a b]
    · exact fun h => by omega

theorem splitAtByte_some : ∀ {s : Str} {n : Nat} {a b : Str}, splitAtByte s n = some (a, b) →
    s = a ++ b ∧ n = blen a
  | s, 0, a, b, h => by
    have : some (([] : Str), s) = some (a, b) := by cases s <;> simpa [splitAtByte] using h
    cases this
    exact ⟨rfl, rfl⟩
  | [], n + 1, a, b, h => by simp [splitAtByte] at h
  | c :: cs, n + 1, a, b, h => by
    simp only [splitAtByte] at h
    split at h
    · split at h
      · rename_i hle l r hl
        obtain ⟨rfl, hn⟩ := splitAtByte_some hl
        cases h
        exact ⟨rfl, by rw [blen_cons]; omega⟩
      · cases h
    · cases h

/-- The slice designates `t`, which follows `pre` in the buffer. -/
def Slice.At (s : Slice) (pre t : Str) : Prop :=
  ∃ post, s.buf = pre ++ (t ++ post) ∧ s.ptr = blen pre ∧ s.len = blen t

theorem Slice.At.read {s : Slice} {pre t : Str} (h : s.At pre t) : s.read = .ok t := by
  obtain ⟨post, hb, hp, hl⟩ := h
  rw [Slice.read, if_neg (by omega), hp, hl, Int.toNat_natCast, Int.toNat_natCast, hb,
    splitAtByte_append]
  dsimp only
  rw [splitAtByte_append]

theorem Slice.at_of_read {s : Slice} {t : Str} (h : s.read = .ok t) : ∃ pre, s.At pre t := by
  simp only [Slice.read] at h
  split at h
  · cases h
  · split at h
    · cases h
    · rename_i hn _ pre r hr
      split at h
      · cases h
      · rename_i t' post ht
        cases h
        obtain ⟨h1, h2⟩ := splitAtByte_some hr
        obtain ⟨h3, h4⟩ := splitAtByte_some ht
        exact ⟨pre, post, by rw [h1, h3], by omega, by omega⟩

theorem Slice.At.check {s : Slice} {pre t : Str} (h : s.At pre t) : s.check = .ok s := by
  rw [Slice.check, h.read]

theorem Slice.at_ofStr (s : Str) : (Slice.ofStr s).At [] s := ⟨[], by simp [Slice.ofStr], rfl, rfl⟩

theorem Slice.At.splitAt {s : Slice} {pre a b : Str} (h : s.At pre (a ++ b)) :
    ∃ x y, s.splitAt (blen a) = .ok (x, y) ∧ x.At pre a ∧ y.At (pre ++ a) b := by
  obtain ⟨post, hb, hp, hl⟩ := h
  rw [blen_append] at hl
  have hm : min (blen a : Int) s.len = blen a := by omega
  have hx : Slice.At ⟨s.buf, s.ptr, blen a⟩ pre a := ⟨b ++ post, by simp [hb], hp, rfl⟩
  have hy : Slice.At ⟨s.buf, s.ptr + blen a, s.len - blen a⟩ (pre ++ a) b :=
    ⟨post, by simp [hb], by rw [blen_append]; dsimp only; omega, by dsimp only; omega⟩
  refine ⟨_, _, ?_, hx, hy⟩
  simp only [Slice.splitAt, hm, hx.check, hy.check]

theorem Slice.At.splitAt_none {s : Slice} {pre t : Str} (h : s.At pre t) {n : Nat}
    (hn : n ≤ blen t) (hs : splitAtByte t n = none) : s.splitAt n = .error .boundary := by
  obtain ⟨post, hb, hp, hl⟩ := h
  have hm : min (n : Int) s.len = n := by omega
  have hr : Slice.check ⟨s.buf, s.ptr, n⟩ = .error .boundary := by
    simp only [Slice.check]
    cases hc : Slice.read ⟨s.buf, s.ptr, n⟩ with
    | error e =>
      simp only [Slice.read] at hc
      repeat' split at hc
      all_goals first | (cases hc; rfl) | (cases hc)
    | ok u =>
      obtain ⟨pre', post', hb', hp', hl'⟩ := Slice.at_of_read hc
      dsimp only at hb' hp' hl'
      have e1 : splitAtByte s.buf (blen pre) = some (pre, t ++ post) := hb ▸ splitAtByte_append _ _
      have e2 : splitAtByte s.buf (blen pre') = some (pre', u ++ post') := hb' ▸ splitAtByte_append _ _
      rw [show blen pre' = blen pre by omega, e1] at e2
      simp only [Option.some.injEq, Prod.mk.injEq] at e2
      have hu : t = u ++ t.drop u.length := by
        have h3 := List.append_eq_append_iff.1 e2.2
        rcases h3 with ⟨w, rfl, _⟩ | ⟨w, rfl, _⟩
        · have hw : blen w = 0 := by rw [blen_append] at hl'; omega
          rw [blen_eq_zero.1 hw]; simp
        · simp
      rw [hu, show n = blen u by omega, splitAtByte_append] at hs
      cases hs
  simp only [Slice.splitAt, hm, hr]

theorem Slice.At.offset_fwd {s : Slice} {pre a b : Str} (h : s.At pre (a ++ b)) :
    ∃ x, s.offset (blen a) = .ok x ∧ x.At (pre ++ a) b := by
  obtain ⟨post, hb, hp, hl⟩ := h
  rw [blen_append] at hl
  have hy : Slice.At ⟨s.buf, s.ptr + blen a, s.len - blen a⟩ (pre ++ a) b :=
    ⟨post, by simp [hb], by rw [blen_append]; dsimp only; omega, by dsimp only; omega⟩
  exact ⟨_, hy.check, hy⟩

theorem Slice.At.offset_back {s : Slice} {pre a b : Str} (h : s.At (pre ++ a) b) :
    ∃ x, s.offset (-(blen a : Int)) = .ok x ∧ x.At pre (a ++ b) := by
  obtain ⟨post, hb, hp, hl⟩ := h
  rw [blen_append] at hp
  have hy : Slice.At ⟨s.buf, s.ptr + -(blen a : Int), s.len - -(blen a : Int)⟩ pre (a ++ b) :=
    ⟨post, by simp [hb], by dsimp only; omega, by rw [blen_append]; dsimp only; omega⟩
  exact ⟨_, hy.check, hy⟩

theorem Slice.At.substr {s : Slice} {pre a t b : Str} (h : s.At pre (a ++ (t ++ b))) :
    ∃ x, s.substr (blen a) (blen a + blen t) = .ok x ∧ x.At (pre ++ a) t := by
  obtain ⟨post, hb, hp, hl⟩ := h
  simp only [blen_append] at hl
  have e1 : min (blen a : Int) s.len = blen a := by omega
  have e2 : min ((blen a + blen t : Nat) : Int) s.len = (blen a + blen t : Nat) := by omega
  have hy : Slice.At ⟨s.buf, s.ptr + blen a, ((blen a + blen t : Nat) : Int) - blen a⟩ (pre ++ a) t :=
    ⟨b ++ post, by simp [hb], by rw [blen_append]; dsimp only; omega, by dsimp only; omega⟩
  refine ⟨_, ?_, hy⟩
  simp only [Slice.substr, e1, e2]
  exact hy.check

/-! ## Bytes -/

theorem enc_length (s : Str) : (enc s).length = blen s := by
  induction s with
  | nil => rfl
  | cons c cs ih => simp [enc, blen]

theorem enc_append (a b : Str) : enc (a ++ b) = enc a ++ enc b := by simp [enc]

/-- What a slice designates, as bytes: the range of the buffer from `ptr` on, `len` long. -/
theorem Slice.read_bytes {s : Slice} {t : Str} (h : s.read = .ok t) :
    0 ≤ s.ptr ∧ 0 ≤ s.len ∧ s.ptr + s.len ≤ (enc s.buf).length ∧
    enc t = ((enc s.buf).drop s.ptr.toNat).take s.len.toNat := by
  obtain ⟨pre, post, hb, hp, hl⟩ := Slice.at_of_read h
  refine ⟨by omega, by omega, ?_, ?_⟩
  · rw [enc_length, hb, blen_append, blen_append]; omega
  · rw [hp, hl, hb, Int.toNat_natCast, Int.toNat_natCast, enc_append, enc_append, ← enc_length pre,
      ← enc_length t, List.drop_left, List.take_left]

theorem encodeChar_ascii {p : Char} (hp : p.val.toNat < 128) :
    String.utf8EncodeChar p = [UInt8.ofNat p.val.toNat] := by
  have : p.val.toNat ≤ 0x7f := by omega
  simp only [String.utf8EncodeChar]
  rw [if_pos this]

theorem not_mem_encodeChar {p c : Char} (hp : p.val.toNat < 128) (h : c ≠ p) :
    UInt8.ofNat p.val.toNat ∉ String.utf8EncodeChar c := by
  have hne : c.val.toNat ≠ p.val.toNat := fun e => h (Char.ext (UInt32.toNat_inj.1 e))
  have hc : c.val.toNat < 0x110000 := by
    have := c.valid
    rcases this with h | h <;> omega
  have key : ∀ n m : Nat, n < 256 → m < 256 → UInt8.ofNat n = UInt8.ofNat m → n = m := by
    intro n m hn hm h
    have := congrArg UInt8.toNat h
    rw [UInt8.toNat_ofNat_of_lt' hn, UInt8.toNat_ofNat_of_lt' hm] at this
    exact this
  intro hm
  unfold String.utf8EncodeChar at hm
  dsimp only at hm
  split at hm
  · simp only [List.mem_cons, List.not_mem_nil, or_false] at hm
    have := key _ _ (by omega) (by omega) hm
    omega
  · split at hm
    · simp only [List.mem_cons, List.not_mem_nil, or_false] at hm
      rcases hm with hm | hm <;>
      · have := key _ _ (by omega) (by omega) hm
        omega
    · split at hm
      · simp only [List.mem_cons, List.not_mem_nil, or_false] at hm
        rcases hm with hm | hm | hm <;>
        · have := key _ _ (by omega) (by omega) hm
          omega
      · simp only [List.mem_cons, List.not_mem_nil, or_false] at hm
        rcases hm with hm | hm | hm | hm <;>
        · have := key _ _ (by omega) (by omega) hm
          omega

/-- The byte of an ASCII character. -/
def byteOf (p : Char) : UInt8 := UInt8.ofNat p.val.toNat

theorem byteOf_not_mem {p : Char} (hp : p.val.toNat < 128) {t : Str} (h : p ∉ t) :
    byteOf p ∉ enc t := by
  intro hm
  obtain ⟨c, hc, hb⟩ := List.mem_flatMap.1 hm
  exact not_mem_encodeChar hp (fun e => h (e ▸ hc)) hb

theorem idxOf_enc {p : Char} (hp : p.val.toNat < 128) {x : Str} (h : p ∉ x) (r : Str) :
    (enc (x ++ p :: r)).idxOf (byteOf p) = blen x := by
  have : enc (x ++ p :: r) = enc x ++ byteOf p :: enc r := by
    rw [enc_append]
    simp only [enc, List.flatMap_cons, encodeChar_ascii hp]
    rfl
  rw [this, List.idxOf_append, if_neg (byteOf_not_mem hp h), List.idxOf_cons_self, enc_length]
  simp

theorem utf8Size_ascii {p : Char} (hp : p.val.toNat < 128) : p.utf8Size = 1 := by
  have := enc_length [p]
  simp only [enc, List.flatMap_cons, List.flatMap_nil, List.append_nil, encodeChar_ascii hp] at this
  simpa [blen] using this.symm

/-! ## The iterator -/

theorem SSplit.next_last {p : Char} (hp : p.val.toNat < 128) {it : SSplit} {s : Slice} {pre t : Str}
    (hi : it.isNext = true) (hr : it.rest = some s) (hpat : it.pat = byteOf p) (hs : s.At pre t)
    (ht : p ∉ t) :
    it.next = .ok (some s, { it with isNext := false, rest := none }) := by
  have hne : ¬ (enc t).idxOf (byteOf p) < (enc t).length := by
    rw [List.idxOf_lt_length_iff]; exact byteOf_not_mem hp ht
  simp only [SSplit.next, hi, hr, hs.read, hpat, hne, if_true, if_false]

theorem SSplit.next_keep {p : Char} (hp : p.val.toNat < 128) {it : SSplit} {s : Slice} {pre x r : Str}
    (hi : it.isNext = true) (hr : it.rest = some s) (hpat : it.pat = byteOf p) (hk : it.keep = true)
    (hs : s.At pre (x ++ p :: r)) (hx : p ∉ x) :
    ∃ a b, it.next = .ok (some a, { it with rest := some b }) ∧ a.At pre (x ++ [p]) ∧
      b.At (pre ++ (x ++ [p])) r := by
  have hi' := idxOf_enc hp hx r
  have hlt : blen x < (enc (x ++ p :: r)).length := by
    rw [enc_length, blen_append, blen_cons, utf8Size_ascii hp]; omega
  have hs' : s.At pre ((x ++ [p]) ++ r) := by simpa using hs
  obtain ⟨a, b, h1, h2, h3⟩ := hs'.splitAt
  refine ⟨a, b, ?_, h2, h3⟩
  have e : blen (x ++ [p]) = blen x + 1 := by
    rw [blen_append, blen_cons, blen_nil, utf8Size_ascii hp]
  rw [e] at h1
  simp only [SSplit.next, hi, hr, hs.read, hpat, hi', hlt, hk, if_true, h1]

theorem SSplit.next_drop {p : Char} (hp : p.val.toNat < 128) {it : SSplit} {s : Slice} {pre x r : Str}
    (hi : it.isNext = true) (hr : it.rest = some s) (hpat : it.pat = byteOf p) (hk : it.keep = false)
    (hs : s.At pre (x ++ p :: r)) (hx : p ∉ x) :
    ∃ a b, it.next = .ok (some a, { it with rest := some b }) ∧ a.At pre x ∧
      b.At (pre ++ x ++ [p]) r := by
  have hi' := idxOf_enc hp hx r
  have hlt : blen x < (enc (x ++ p :: r)).length := by
    rw [enc_length, blen_append, blen_cons, utf8Size_ascii hp]; omega
  obtain ⟨a, b, h1, h2, h3⟩ := hs.splitAt
  have h3' : b.At (pre ++ x) ([p] ++ r) := h3
  obtain ⟨b', h4, h5⟩ := h3'.offset_fwd
  have e : blen [p] = 1 := by rw [blen_cons, blen_nil, utf8Size_ascii hp]
  rw [e] at h4
  refine ⟨a, b', ?_, h2, h5⟩
  have h4' : b.offset 1 = .ok b' := h4
  simp only [SSplit.next, hi, hr, hs.read, hpat, hi', hlt, hk, if_true, h1, h4']
  simp

/-- The iterator over lines has still to deliver `ls`; the next one starts where `P` holds of the
text before it. -/
def LineIt (P : Str → Prop) (it : SSplit) (ls : List Str) : Prop :=
  it.pat = byteOf '\n' ∧ it.keep = true ∧
  ((it.isNext = false ∧ ls = []) ∨
   (it.isNext = true ∧ ∃ s pre t, it.rest = some s ∧ s.At pre t ∧ ls = splitKeep '\n' t ∧ P pre))

/-- A line ends here. -/
def AfterNl (pre : Str) : Prop := ∃ w, pre = w ++ ['\n']

theorem LineIt.nil {P : Str → Prop} {it : SSplit} (h : LineIt P it []) :
    it.next = .ok (none, it) := by
  rcases h.2.2 with ⟨hi, _⟩ | ⟨_, s, pre, t, _, _, h, _⟩
  · simp [SSplit.next, hi]
  · exact absurd h.symm (splitKeep_ne_nil _ _)

theorem LineIt.cons {P : Str → Prop} {it : SSplit} {l : Str} {ls : List Str}
    (h : LineIt P it (l :: ls)) :
    ∃ a it' pre, it.next = .ok (some a, it') ∧ a.At pre l ∧ P pre ∧ LineIt AfterNl it' ls ∧
      ((ls = [] ∧ it'.rest = none) ∨ ∃ s, it'.rest = some s ∧ s.At (pre ++ l) ls.flatten) := by
  obtain ⟨hpat, hk, h⟩ := h
  rcases h with ⟨_, h⟩ | ⟨hi, s, pre, t, hr, hs, hl, hP⟩
  · cases h
  · rcases first_sep '\n' t with ht | ⟨x, r, rfl, hx⟩
    · rw [splitKeep_of_not_mem ht] at hl
      cases hl
      exact ⟨s, _, pre, SSplit.next_last (by decide) hi hr hpat hs ht, hs, hP,
        ⟨hpat, hk, .inl ⟨rfl, rfl⟩⟩, .inl ⟨rfl, rfl⟩⟩
    · rw [splitKeep_append_sep hx] at hl
      cases hl
      obtain ⟨a, b, h1, h2, h3⟩ := SSplit.next_keep (by decide) hi hr hpat hk hs hx
      refine ⟨a, _, pre, h1, h2, hP, ⟨hpat, hk, .inr ⟨hi, b, _, r, rfl, h3, rfl, pre ++ x, ?_⟩⟩,
        .inr ⟨b, rfl, ?_⟩⟩
      · simp
      · rw [splitKeep_flatten]; exact h3

/-- The iterator over pieces has still to deliver `ls`. -/
def CutIt (p : Char) (it : SSplit) (ls : List Str) : Prop :=
  it.pat = byteOf p ∧ it.keep = false ∧
  ((it.isNext = false ∧ ls = []) ∨
   (it.isNext = true ∧ ∃ s pre t, it.rest = some s ∧ s.At pre t ∧ ls = splitDrop p t))

theorem CutIt.nil {p : Char} {it : SSplit} (h : CutIt p it []) : it.next = .ok (none, it) := by
  rcases h.2.2 with ⟨hi, _⟩ | ⟨_, s, pre, t, _, _, h⟩
  · simp [SSplit.next, hi]
  · exact absurd h.symm (splitDrop_ne_nil _ _)

theorem CutIt.cons {p : Char} (hp : p.val.toNat < 128) {it : SSplit} {l : Str} {ls : List Str}
    (h : CutIt p it (l :: ls)) :
    ∃ a it' pre, it.next = .ok (some a, it') ∧ a.At pre l ∧ CutIt p it' ls := by
  obtain ⟨hpat, hk, h⟩ := h
  rcases h with ⟨_, h⟩ | ⟨hi, s, pre, t, hr, hs, hl⟩
  · cases h
  · rcases first_sep p t with ht | ⟨x, r, rfl, hx⟩
    · rw [splitDrop_of_not_mem ht] at hl
      cases hl
      exact ⟨s, _, pre, SSplit.next_last hp hi hr hpat hs ht, hs, ⟨hpat, hk, .inl ⟨rfl, rfl⟩⟩⟩
    · rw [splitDrop_append_sep hx] at hl
      cases hl
      obtain ⟨a, b, h1, h2, h3⟩ := SSplit.next_drop hp hi hr hpat hk hs hx
      exact ⟨a, _, pre, h1, h2, ⟨hpat, hk, .inr ⟨hi, b, _, r, rfl, h3, rfl⟩⟩⟩

theorem splitKeep_length_le (p : Char) (s : Str) : (splitKeep p s).length ≤ blen s + 1 := by
  induction s using piece_induction p with
  | base s h => rw [splitKeep_of_not_mem h]; simp
  | step x r hx ih =>
    have := p.utf8Size_pos
    rw [splitKeep_append_sep hx, blen_append, blen_cons, List.length_cons]; omega

theorem splitDrop_length_le (p : Char) (s : Str) : (splitDrop p s).length ≤ blen s + 1 := by
  induction s using piece_induction p with
  | base s h => rw [splitDrop_of_not_mem h]; simp
  | step x r hx ih =>
    have := p.utf8Size_pos
    rw [splitDrop_append_sep hx, blen_append, blen_cons, List.length_cons]; omega

/-! ## The list map reader -/

theorem sLines_eq {P : Str → Prop} (sources contents : List Int) :
    ∀ (ms : List Str) (fuel : Nat) (st : LfState) (lines maps : SSplit) (ls : List Str),
    ms.length < fuel → CutIt ';' maps ms → LineIt P lines ls → (ms = [] → LineIt AfterNl lines ls) →
    match lfLines sources contents st ls ms with
    | .error e => sLines sources contents fuel st lines maps = .error e
    | .ok (st', rest) => ∃ it, sLines sources contents fuel st lines maps = .ok (st', it) ∧
        LineIt AfterNl it rest := by
  intro ms
  induction ms generalizing P with
  | nil =>
    intro fuel st lines maps ls hf hm _ hl
    obtain ⟨fuel, rfl⟩ : ∃ k, fuel = k + 1 := ⟨fuel - 1, by simp at hf; omega⟩
    simp only [lfLines, sLines, hm.nil]
    exact ⟨lines, rfl, hl rfl⟩
  | cons m ms ih =>
    intro fuel st lines maps ls hf hm hl _
    obtain ⟨fuel, rfl⟩ : ∃ k, fuel = k + 1 := ⟨fuel - 1, by simp at hf; omega⟩
    obtain ⟨a, maps', pre, h1, h2, h3⟩ := hm.cons (by decide)
    cases ls with
    | nil =>
      simp only [lfLines, sLines, h1, hl.nil]
      have hl' : LineIt AfterNl lines [] := by
        obtain ⟨hpat, hk, h⟩ := hl
        rcases h with h | ⟨_, _, _, _, _, _, h, _⟩
        · exact ⟨hpat, hk, .inl h⟩
        · exact absurd h.symm (splitKeep_ne_nil _ _)
      exact ih fuel st lines maps' [] (by simp at hf; omega) h3 hl' (fun _ => hl')
    | cons l ls =>
      obtain ⟨b, lines', pre', h4, h5, _, h6, _⟩ := hl.cons
      simp only [lfLines, sLines, h1, h4, h2.read, h5.read]
      cases lfLine sources contents st l m with
      | error e => rfl
      | ok st => exact ih fuel st lines' maps' ls (by simp at hf; omega) h3 h6 (fun _ => h6)

theorem sRest_eq : ∀ (ls : List Str) (fuel : Nat) (st : LfState) (lines : SSplit),
    ls.length < fuel → LineIt AfterNl lines ls → sRest fuel st lines = .ok (lfRest st ls) := by
  intro ls
  induction ls with
  | nil =>
    intro fuel st lines hf hl
    obtain ⟨fuel, rfl⟩ : ∃ k, fuel = k + 1 := ⟨fuel - 1, by simp at hf; omega⟩
    simp only [sRest, hl.nil, lfRest]
  | cons l ls ih =>
    intro fuel st lines hf hl
    obtain ⟨fuel, rfl⟩ : ∃ k, fuel = k + 1 := ⟨fuel - 1, by simp at hf; omega⟩
    obtain ⟨a, lines', pre, h1, h2, ⟨w, rfl⟩, h4, h5⟩ := hl.cons
    obtain ⟨back, h6, h7⟩ := h2.offset_back
    have h6' : a.offset (-1) = .ok back := h6
    simp only [sRest, h1, h6', h7.read, h2.read, lfRest, List.singleton_append]
    by_cases hb : isBlank ('\n' :: l) = true
    · rw [if_pos hb, if_pos hb]
      exact ih fuel _ _ (by simp at hf; omega) h4
    · rw [if_neg hb, if_neg hb]
      obtain ⟨fuel, rfl⟩ : ∃ k, fuel = k + 1 := ⟨fuel - 1, by simp at hf; omega⟩
      rcases h5 with ⟨rfl, hr⟩ | ⟨s, hr, hs⟩
      · simp [SSplit.takeRest, hr, sRest, SSplit.next]
      · obtain ⟨last, h8, h9⟩ := hs.offset_back
        obtain ⟨_, _, _, hlen⟩ := h2
        simp only [SSplit.takeRest, hr, hlen, h8, h9.read, sRest, SSplit.next]
        simp

theorem sSlmFromString_eq {code mappings : Slice} {pre c pre' m : Str} (hc : code.At pre c)
    (hm : mappings.At pre' m) (sources contents : List Int) :
    sSlmFromString code sources contents mappings = slmFromString c sources contents m := by
  have h1 : CutIt ';' (SSplit.new mappings 59 false) (splitDrop ';' m) :=
    ⟨rfl, rfl, .inr ⟨rfl, mappings, pre', m, rfl, hm, rfl⟩⟩
  have h2 : LineIt (fun _ => True) (SSplit.new code 10 true) (splitKeep '\n' c) :=
    ⟨rfl, rfl, .inr ⟨rfl, code, pre, c, rfl, hc, rfl, trivial⟩⟩
  have hml : mappings.len.toNat = blen m := by obtain ⟨_, _, _, h⟩ := hm; omega
  have hcl : code.len.toNat = blen c := by obtain ⟨_, _, _, h⟩ := hc; omega
  have h3 := sLines_eq sources contents (splitDrop ';' m) (mappings.len.toNat + 2)
    { rev := [], curLine := 1, curSource := 0, nodeLine := 0 } _ _ _
    (by have := splitDrop_length_le ';' m; omega) h1 h2 (fun h => absurd h (splitDrop_ne_nil _ _))
  have hlen : ∀ (ms : List Str) (st : LfState) (ls : List Str) (p : LfState × List Str),
      lfLines sources contents st ls ms = .ok p → p.2.length ≤ ls.length := by
    intro ms
    induction ms with
    | nil => intro st ls p h; simp only [lfLines] at h; cases h; simp
    | cons m ms ih =>
      intro st ls p h
      cases ls with
      | nil => simp only [lfLines] at h; exact ih _ _ _ h
      | cons l ls =>
        simp only [lfLines] at h
        split at h
        · cases h
        · have := ih _ _ _ h; simp; omega
  rw [sSlmFromString, slmFromString]
  split at h3
  · rename_i e he
    rw [h3, he]
  · rename_i st rest he
    obtain ⟨it, h4, h5⟩ := h3
    rw [h4, he]
    dsimp only
    have h6 := hlen _ _ _ _ he
    have := splitKeep_length_le '\n' c
    rw [sRest_eq rest _ st it (by dsimp only at h6; omega) h5]

end WS
