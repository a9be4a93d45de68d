import Verif.Proofs.Slice
import Verif.Proofs.NodeText
/-! # The column-level reader and the items of an original source over slices -/

namespace WS

/-- The results designate the same texts. -/
def SplitRel : SSplitRes → SplitRes → Prop
  | .ok l r a b, .ok l' r' a' b' => l.read = .ok l' ∧ r.read = .ok r' ∧ a = a' ∧ b = b'
  | .err n s b, .err n' s' b' => n = n' ∧ s.read = .ok s' ∧ b = b'
  | _, _ => False

theorem charPos_spec : ∀ (t : Str) (bp n : Nat), 1 ≤ n →
    charPos t bp n = if n ≤ t.length then .inl (bp + blen (t.take n)) else .inr (n - t.length)
  | [], bp, n, h => by simp [charPos]; omega
  | c :: cs, bp, n, h => by
    simp only [charPos]
    by_cases h1 : n = 1
    · subst h1; simp [blen]
    · obtain ⟨n, rfl⟩ : ∃ k, n = k + 1 := ⟨n - 1, by omega⟩
      rw [if_neg h1, Nat.add_sub_cancel, charPos_spec cs _ n (by omega)]
      simp only [List.length_cons, List.take_succ_cons, blen_cons, Nat.add_le_add_iff_right,
        Nat.add_sub_add_right, Nat.add_assoc]

theorem sSplitStr_rel {s : Slice} {t : Str} (h : s.read = .ok t) (pos : Int) (sbc : Bool) :
    match splitStr t pos sbc with
    | .error e => sSplitStr s pos sbc = .error e
    | .ok q => ∃ r, sSplitStr s pos sbc = .ok r ∧ SplitRel r q := by
  obtain ⟨pre, hs⟩ := Slice.at_of_read h
  have hlen : s.len = blen t := by obtain ⟨_, _, _, h⟩ := hs; exact h
  simp only [splitStr, sSplitStr, h]
  by_cases hp : pos ≤ 0
  · simp only [hp, if_true]
    exact ⟨_, rfl, (Slice.at_ofStr []).read, h, rfl, rfl⟩
  · simp only [hp, if_false]
    cases sbc with
    | true =>
      simp only [if_true]
      by_cases hl : pos.toNat < blen t
      · have hl' : pos < s.len := by omega
        simp only [hl, hl', if_true]
        cases hsp : splitAtByte t pos.toNat with
        | none =>
          simp only [hs.splitAt_none (Nat.le_of_lt hl) hsp]
        | some p =>
          obtain ⟨l, r⟩ := p
          obtain ⟨rfl, hn⟩ := splitAtByte_some hsp
          obtain ⟨x, y, h1, h2, h3⟩ := hs.splitAt
          rw [← hn] at h1
          simp only [h1]
          exact ⟨_, rfl, h2.read, h3.read, rfl, rfl⟩
      · have hl' : ¬ pos < s.len := by omega
        simp only [hl, hl', if_false]
        exact ⟨_, rfl, by omega, h, rfl⟩
    | false =>
      simp only [Bool.false_eq_true, if_false]
      rw [charPos_spec t 0 pos.toNat (by omega)]
      by_cases hn : pos.toNat ≤ t.length
      · simp only [hn, if_true, Nat.zero_add]
        have hs' : s.At pre (t.take pos.toNat ++ t.drop pos.toNat) := by
          rw [List.take_append_drop]; exact hs
        obtain ⟨x, y, h1, h2, h3⟩ := hs'.splitAt
        simp only [h1]
        exact ⟨_, rfl, h2.read, h3.read, rfl, rfl⟩
      · simp only [hn, if_false]
        exact ⟨_, rfl, rfl, h, rfl⟩

theorem SplitRel.orAll {r : SSplitRes} {q : SplitRes} (h : SplitRel r q) :
    r.orAll.1.read = .ok q.orAll.1 ∧ r.orAll.2.1.read = .ok q.orAll.2.1 ∧
    r.orAll.2.2 = q.orAll.2.2 := by
  cases r <;> cases q <;> simp only [SplitRel] at h
  · obtain ⟨h1, h2, rfl, rfl⟩ := h
    exact ⟨h1, h2, rfl⟩
  · obtain ⟨_, h1, rfl⟩ := h
    exact ⟨h1, (Slice.at_ofStr []).read, rfl⟩

/-! ## The line table -/

/-- All characters take one byte. -/
def allSingle (s : Str) : Bool := s.all fun c => decide (c.utf8Size ≤ 1)

theorem codeLines_of_not_mem : ∀ {s : Str}, '\n' ∉ s →
    codeLines s = if s = [] then [] else [(s, allSingle s)]
  | [], _ => rfl
  | c :: cs, h => by
    rw [List.mem_cons, not_or] at h
    rw [codeLines]
    simp only [Ne.symm h.1, if_false]
    rw [codeLines_of_not_mem h.2]
    by_cases hcs : cs = []
    · subst hcs; simp [allSingle]
    · simp [hcs, allSingle]

theorem codeLines_append_nl : ∀ {x : Str} (r : Str), '\n' ∉ x →
    codeLines (x ++ '\n' :: r) = (x ++ ['\n'], allSingle x) :: codeLines r
  | [], r, _ => by simp [codeLines, allSingle]; decide
  | c :: cs, r, h => by
    rw [List.mem_cons, not_or] at h
    rw [List.cons_append, codeLines]
    simp only [Ne.symm h.1, if_false]
    rw [codeLines_append_nl r h.2]
    simp [allSingle]

/-- The tables designate the same lines. -/
def TableRel (ls : List (Slice × Bool)) (ls' : List (Str × Bool)) : Prop :=
  ls.map (fun x => (x.1.read, x.2)) = ls'.map (fun y => ((.ok y.1 : M Str), y.2))

theorem sCodeScan_spec {code : Slice} {pre : Str} :
    ∀ (rest done cur : Str), code.At pre (done ++ (cur ++ rest)) → '\n' ∉ cur →
    ∃ ls ls' st tail d, sCodeScan code rest (blen done + blen cur) (blen done) (allSingle cur) =
        .ok (ls, st, allSingle tail) ∧
      TableRel ls ls' ∧ done ++ (cur ++ rest) = d ++ tail ∧ st = blen d ∧ '\n' ∉ tail ∧
      codeLines (cur ++ rest) = ls' ++ (if tail = [] then [] else [(tail, allSingle tail)])
  | [], done, cur, h, hc =>
    ⟨[], [], blen done, cur, done, rfl, rfl, by simp, rfl, hc, by
      rw [List.append_nil, codeLines_of_not_mem hc, List.nil_append]⟩
  | c :: cs, done, cur, h, hc => by
    by_cases hn : c = '\n'
    · subst hn
      have h1 : code.At pre (done ++ ((cur ++ ['\n']) ++ cs)) := by simpa using h
      obtain ⟨x, h2, h3⟩ := h1.substr
      have h4 : code.At pre ((done ++ (cur ++ ['\n'])) ++ ([] ++ cs)) := by simpa using h
      obtain ⟨ls, ls', st, tail, d, h5, h6, h7, h8, h9, h10⟩ :=
        sCodeScan_spec cs _ [] h4 (by simp)
      have hb : blen (cur ++ ['\n']) = blen cur + 1 := by
        rw [blen_append]; rfl
      rw [blen_append, hb, blen_nil, Nat.add_zero] at h5
      rw [hb] at h2
      have hz : ('\n' : Char).utf8Size = 1 := by decide
      refine ⟨(x, allSingle cur) :: ls, (cur ++ ['\n'], allSingle cur) :: ls', st, tail, d, ?_, ?_, ?_,
        h8, h9, ?_⟩
      · simp only [sCodeScan, hz, if_true, Nat.lt_irrefl, if_false, Nat.add_assoc]
        rw [h2]
        have h5' : sCodeScan code cs (blen done + (blen cur + 1)) (blen done + (blen cur + 1)) true =
          .ok (ls, st, allSingle tail) := h5
        simp only [h5']
      · simp only [TableRel, List.map_cons, h3.read]
        rw [show ls.map _ = _ from h6]
      · rw [← h7]; simp
      · rw [codeLines_append_nl cs hc]
        rw [List.nil_append] at h10
        rw [h10]; rfl
    · have h1 : code.At pre (done ++ ((cur ++ [c]) ++ cs)) := by simpa using h
      have hc' : '\n' ∉ cur ++ [c] := by simp [hc, Ne.symm hn]
      obtain ⟨ls, ls', st, tail, d, h5, h6, h7, h8, h9, h10⟩ :=
        sCodeScan_spec cs done (cur ++ [c]) h1 hc'
      refine ⟨ls, ls', st, tail, d, ?_, h6, by simpa using h7, h8, h9, by simpa using h10⟩
      rw [blen_append, show blen [c] = c.utf8Size by simp [blen]] at h5
      have hs : allSingle (cur ++ [c]) = if c.utf8Size > 1 then false else allSingle cur := by
        by_cases hz : c.utf8Size > 1
        · have : ¬ c.utf8Size ≤ 1 := by omega
          simp [allSingle, hz, this]
        · have : c.utf8Size ≤ 1 := by omega
          simp [allSingle, hz, this]
      rw [hs] at h5
      simp only [sCodeScan, hn, if_false, Nat.add_assoc]
      exact h5

theorem sCodeLines_spec {code : Slice} {t : Str} (h : code.read = .ok t) :
    ∃ ls, sCodeLines code = .ok ls ∧ TableRel ls (codeLines t) := by
  obtain ⟨pre, hs⟩ := Slice.at_of_read h
  have hlen : code.len = blen t := by obtain ⟨_, _, _, h⟩ := hs; exact h
  obtain ⟨ls, ls', st, tail, d, h1, h2, h3, h4, h5, h6⟩ :=
    sCodeScan_spec (code := code) (pre := pre) t [] [] hs (by simp)
  rw [List.nil_append, List.nil_append] at h3
  rw [List.nil_append] at h6
  have h1' : sCodeScan code t 0 0 true = .ok (ls, st, allSingle tail) := h1
  rw [sCodeLines, h]
  dsimp only
  rw [h1']
  dsimp only
  have hl : blen t = blen d + blen tail := by rw [h3, blen_append]
  by_cases ht : tail = []
  · subst ht
    rw [if_pos (by rw [hlen, h4, hl]; simp [blen])]
    exact ⟨ls, rfl, by rw [h6]; simpa using h2⟩
  · have hz : blen tail ≠ 0 := fun hz => ht (blen_eq_zero.1 hz)
    rw [if_neg (by rw [hlen, h4, hl]; omega)]
    have hs' : code.At pre (d ++ (tail ++ [])) := by rw [List.append_nil, ← h3]; exact hs
    obtain ⟨x, h7, h8⟩ := hs'.substr
    rw [show code.len.toNat = blen d + blen tail by omega, h4, h7]
    refine ⟨_, rfl, ?_⟩
    rw [h6, if_neg ht]
    simp only [TableRel, List.map_append, List.map_cons, List.map_nil, h8.read]
    rw [show ls.map _ = _ from h2]

/-! ## The loop -/

/-- Same state, lines as slices. -/
structure FsRel (a : SFsState) (b : FsState) : Prop where
  children : a.children = b.children
  lastPos : a.lastPos = b.lastPos
  lastMapping : a.lastMapping = b.lastMapping
  text : a.next.text.read = .ok b.next.text
  exist : a.next.exist = b.next.exist
  sbc : a.next.sbc = b.next.sbc
  lines : TableRel a.lines b.lines

theorem sPopLine_rel {ls : List (Slice × Bool)} {ls' : List (Str × Bool)} (h : TableRel ls ls') :
    (sPopLine ls).1.text.read = .ok (popLine ls').1.text ∧
    (sPopLine ls).1.exist = (popLine ls').1.exist ∧ (sPopLine ls).1.sbc = (popLine ls').1.sbc ∧
    TableRel (sPopLine ls).2 (popLine ls').2 := by
  cases ls with
  | nil =>
    cases ls' with
    | nil => exact ⟨(Slice.at_ofStr []).read, rfl, rfl, rfl⟩
    | cons l ls' => simp [TableRel] at h
  | cons l ls =>
    cases ls' with
    | nil => simp [TableRel] at h
    | cons l' ls' =>
      simp only [TableRel, List.map_cons, List.cons.injEq, Prod.mk.injEq] at h
      exact ⟨h.1.1, rfl, h.1.2, h.2⟩

theorem sSkipLines_rel : ∀ (n : Nat) {a : SFsState} {b : FsState}, FsRel a b →
    ∃ a', sSkipLines n a = .ok a' ∧ FsRel a' (skipLines n b)
  | 0, a, b, h => ⟨a, rfl, h⟩
  | n + 1, a, b, h => by
    obtain ⟨p1, p2, p3, p4⟩ := sPopLine_rel h.lines
    rw [sSkipLines, h.text]
    dsimp only
    rw [skipLines]
    exact sSkipLines_rel n ⟨by rw [h.children], by rw [h.lastPos], h.lastMapping, p1, p2, p3, p4⟩

theorem sFsTail_rel {a : SFsState} {b : FsState} (h : FsRel a b) (m : Mapping) :
    match fsTail b m with
    | .error e => sFsTail a m = .error e
    | .ok b' => ∃ a', sFsTail a m = .ok a' ∧ FsRel a' b' := by
  obtain ⟨a', h1, h2⟩ := sSkipLines_rel (m.generated.1 - b.lastPos.1) h
  rw [sFsTail, h.lastPos, h1, fsTail]
  dsimp only
  rw [h2.lastPos]
  by_cases hp : (skipLines (m.generated.1 - b.lastPos.1) b).lastPos.2 < m.generated.2
  · rw [if_pos hp, if_pos hp]
    have h3 := sSplitStr_rel h2.text m.generated.2 a'.next.sbc
    rw [h2.sbc] at h3
    rw [h2.sbc]
    generalize splitStr _ _ _ = q at h3
    cases q with
    | error e => dsimp only at h3 ⊢; rw [h3]
    | ok q =>
      dsimp only at h3 ⊢
      obtain ⟨r, h4, h5⟩ := h3
      obtain ⟨o1, o2, o3⟩ := h5.orAll
      rw [h4]
      dsimp only
      rw [o1]
      exact ⟨_, rfl, by simp only [h2.children], rfl, rfl, o2, h2.exist, by simp only [o3], h2.lines⟩
  · rw [if_neg hp, if_neg hp]
    exact ⟨_, rfl, h2.children, rfl, rfl, h2.text, h2.exist, h2.sbc, h2.lines⟩

theorem sFsStep_rel {a : SFsState} {b : FsState} (h : FsRel a b) (m : Mapping) :
    match fsStep b m with
    | .error e => sFsStep a m = .error e
    | .ok b' => ∃ a', sFsStep a m = .ok a' ∧ FsRel a' b' := by
  rw [sFsStep, fsStep, h.lastMapping]
  cases hm : b.lastMapping with
  | none => exact sFsTail_rel h m
  | some lm =>
    dsimp only
    rw [h.lastPos]
    by_cases hp : b.lastPos.1 < m.generated.1
    · rw [if_pos hp, if_pos hp, h.text]
      obtain ⟨p1, p2, p3, p4⟩ := sPopLine_rel h.lines
      exact sFsTail_rel
        (a := { a with children := addMappingWithCode a.children (some lm) b.next.text
                       next := (sPopLine a.lines).1, lines := (sPopLine a.lines).2
                       lastPos := (b.lastPos.1 + 1, 0), lastMapping := some lm })
        (b := { b with children := addMappingWithCode b.children (some lm) b.next.text
                       next := (popLine b.lines).1, lines := (popLine b.lines).2
                       lastPos := (b.lastPos.1 + 1, 0), lastMapping := some lm })
        ⟨by simp only [h.children], rfl, rfl, p1, p2, p3, p4⟩ m
    · rw [if_neg hp, if_neg hp]
      have h3 := sSplitStr_rel h.text ((m.generated.2 : Int) - b.lastPos.2) a.next.sbc
      rw [h.sbc] at h3
      rw [h.sbc]
      generalize splitStr _ _ _ = q at h3
      cases q with
      | error e => dsimp only at h3 ⊢; rw [h3]
      | ok q =>
        dsimp only at h3 ⊢
        obtain ⟨r, h4, h5⟩ := h3
        obtain ⟨o1, o2, o3⟩ := h5.orAll
        rw [h4]
        dsimp only
        rw [o1]
        exact ⟨_, rfl, by simp only [h.children], rfl, rfl, o2, h.exist, by simp only [o3], h.lines⟩

theorem sFsLoop_rel : ∀ (ms : List Mapping) {a : SFsState} {b : FsState}, FsRel a b →
    match fsLoop b ms with
    | .error e => sFsLoop a ms = .error e
    | .ok b' => ∃ a', sFsLoop a ms = .ok a' ∧ FsRel a' b'
  | [], a, b, h => ⟨a, rfl, h⟩
  | m :: ms, a, b, h => by
    have h1 := sFsStep_rel h m
    rw [sFsLoop, fsLoop]
    generalize fsStep b m = q at h1
    cases q with
    | error e => dsimp only at h1 ⊢; rw [h1]
    | ok q =>
      obtain ⟨a', h2, h3⟩ := h1
      dsimp only
      rw [h2]
      exact sFsLoop_rel ms h3

theorem readAll_rel : ∀ {ls : List (Slice × Bool)} {ls' : List (Str × Bool)}, TableRel ls ls' →
    readAll ls = .ok (ls'.map Prod.fst)
  | [], [], _ => rfl
  | [], _ :: _, h => by simp [TableRel] at h
  | _ :: _, [], h => by simp [TableRel] at h
  | (l, b) :: ls, (l', b') :: ls', h => by
    simp only [TableRel, List.map_cons, List.cons.injEq, Prod.mk.injEq] at h
    rw [readAll, h.1.1, readAll_rel h.2]
    rfl

theorem sFsFinish_rel {a : SFsState} {b : FsState} (h : FsRel a b) :
    sFsFinish a = .ok (fsFinish b) := by
  rw [sFsFinish, fsFinish, h.exist, h.text, readAll_rel h.lines, h.lastMapping, h.children]
  by_cases he : b.next.exist = true
  · rw [if_pos he, if_pos he]
    cases b.lastMapping <;> rfl
  · rw [if_neg he, if_neg he]

theorem sFromString_eq {code : Slice} {t : Str} (h : code.read = .ok t) (g : Generator) :
    sFromString code g = fromStringWithGenerator t g := by
  obtain ⟨ls, h1, h2⟩ := sCodeLines_spec h
  obtain ⟨p1, p2, p3, p4⟩ := sPopLine_rel h2
  rw [sFromString, h1, fromStringWithGenerator]
  dsimp only
  have h3 := sFsLoop_rel g.mappings.list
    (a := { children := [], lastPos := (1, 0), lastMapping := none, next := (sPopLine ls).1,
            lines := (sPopLine ls).2 })
    (b := { children := [], lastPos := (1, 0), lastMapping := none, next := (popLine (codeLines t)).1,
            lines := (popLine (codeLines t)).2 })
    ⟨rfl, rfl, rfl, p1, p2, p3, p4⟩
  generalize fsLoop _ _ = q at h3
  cases q with
  | error e => dsimp only at h3 ⊢; rw [h3]
  | ok q =>
    obtain ⟨a', h4, h5⟩ := h3
    dsimp only
    rw [h4]
    dsimp only
    rw [sFsFinish_rel h5]

/-! ## Items -/

theorem mem_encodeChar_sep {c : Char} {b : UInt8} (hb : b ∈ String.utf8EncodeChar c) :
    isSepByte b = isSep c := by
  by_cases hc : isSep c = true
  · simp only [isSep, Bool.or_eq_true, beq_iff_eq] at hc
    rcases hc with (((rfl | rfl) | rfl) | rfl) | rfl <;>
    · rw [encodeChar_ascii (by decide)] at hb
      rw [List.mem_singleton.1 hb]; decide
  · have key : ∀ p : Char, p.val.toNat < 128 → isSep p = true → b ≠ byteOf p := by
      intro p hp hs e
      have hne : c ≠ p := by
        rintro rfl
        exact hc hs
      exact not_mem_encodeChar hp hne (by rw [e] at hb; exact hb)
    have h1 : b ≠ 10 := key '\n' (by decide) (by decide)
    have h2 : b ≠ 13 := key '\r' (by decide) (by decide)
    have h3 : b ≠ 59 := key ';' (by decide) (by decide)
    have h4 : b ≠ 123 := key '{' (by decide) (by decide)
    have h5 : b ≠ 125 := key '}' (by decide) (by decide)
    simp only [isSepByte, hc]
    simp [h1, h2, h3, h4, h5]

theorem takeWhile_enc {f : UInt8 → Bool} {g : Char → Bool}
    (h : ∀ c b, b ∈ String.utf8EncodeChar c → f b = g c) :
    ∀ s : Str, (enc s).takeWhile f = enc (s.takeWhile g) ∧ (enc s).dropWhile f = enc (s.dropWhile g)
  | [] => ⟨rfl, rfl⟩
  | c :: cs => by
    have ih := takeWhile_enc h cs
    have e : enc (c :: cs) = String.utf8EncodeChar c ++ enc cs := by simp [enc]
    by_cases hg : g c = true
    · have hall : ∀ b ∈ String.utf8EncodeChar c, f b = true := fun b hb => (h c b hb).trans hg
      rw [e, List.takeWhile_append_of_pos hall, List.dropWhile_append_of_pos hall, ih.1, ih.2]
      simp [hg, enc]
    · have hne : String.utf8EncodeChar c ≠ [] := by
        intro he
        have := enc_length [c]
        simp [enc, he, blen] at this
        have := c.utf8Size_pos
        omega
      obtain ⟨b, bs, hb⟩ := List.exists_cons_of_ne_nil hne
      have hf : f b = false := (h c b (by rw [hb]; simp)).trans (by simpa using hg)
      rw [e, hb]
      simp only [List.cons_append, List.takeWhile_cons, List.dropWhile_cons, hf, hg]
      simp [enc, hb]

theorem matchEnd_enc (t : Str) : matchEnd (enc t) = blen (splitItem t).1 := by
  have h1 := takeWhile_enc (f := fun b => !isSepByte b) (g := fun c => !isSep c)
    (fun c b hb => by rw [mem_encodeChar_sep hb]) t
  have h2 := takeWhile_enc (f := isSepByte) (g := isSep) (fun c b hb => mem_encodeChar_sep hb)
    (t.dropWhile (!isSep ·))
  simp only [matchEnd, splitItem, h1.1, h1.2, h2.1, enc_length, blen_append]

theorem splitItem_lt (c : Char) (cs : Str) : (splitItem (c :: cs)).2.length < (c :: cs).length := by
  have h1 := congrArg List.length (splitItem_append (c :: cs))
  have h2 : 0 < (splitItem (c :: cs)).1.length := List.length_pos_iff.2 (splitItem_ne (by simp))
  rw [List.length_append] at h1
  omega

theorem sItems_eq : ∀ (fuel : Nat) {line : Slice} {t : Str}, line.read = .ok t → t.length < fuel →
    ∃ is, sItems fuel line = .ok is ∧
      is.map Slice.read = (lineItems t.length t).map (fun l => (.ok l : M Str)) := by
  have sub : ∀ (n m : Nat) (t : Str), t.length ≤ n → t.length ≤ m → lineItems n t = lineItems m t := by
    intro n
    induction n with
    | zero => intro m t h _; cases t <;> simp_all [lineItems]
    | succ n ih =>
      intro m t h h'
      cases t with
      | nil => simp [lineItems]
      | cons c cs =>
        obtain ⟨m, rfl⟩ : ∃ k, m = k + 1 := ⟨m - 1, by simp at h'; omega⟩
        have hlt := splitItem_lt c cs
        simp only [lineItems]
        rw [ih m _ (by simp at h hlt; omega) (by simp at h' hlt; omega)]
  intro fuel
  induction fuel with
  | zero => intro _ _ _ h; omega
  | succ fuel ih =>
    intro line t h hf
    rw [sItems, h]
    dsimp only
    cases t with
    | nil => exact ⟨[], rfl, rfl⟩
    | cons c cs =>
      obtain ⟨pre, hs⟩ := Slice.at_of_read h
      have happ : (splitItem (c :: cs)).1 ++ (splitItem (c :: cs)).2 = c :: cs := splitItem_append _
      have hs' : line.At pre ((splitItem (c :: cs)).1 ++ (splitItem (c :: cs)).2) := by
        rw [happ]; exact hs
      obtain ⟨x, y, h1, h2, h3⟩ := hs'.splitAt
      have hlt := splitItem_lt c cs
      obtain ⟨is, h4, h5⟩ := ih h3.read (by simp at hlt hf; omega)
      rw [if_neg (by simp), matchEnd_enc, h1]
      dsimp only
      rw [h4]
      refine ⟨_, rfl, ?_⟩
      simp only [List.length_cons, lineItems, List.map_cons, h2.read, h5]
      rw [sub _ cs.length _ (Nat.le_refl _) (by simp at hlt; omega)]

end WS
