import Verif.Proofs.Wasm32Read
import Verif.Proofs.Unfold
import Verif.Props.C32
/-!
# C71: 32-bit numbers

Claim: in the arithmetic of the compiled library (`usize` of 32 bits, `i32` that wraps) every read gives what it gives
with unbounded numbers, as long as the numbers in the given maps, the positions of the replacements and the sizes
of the texts stay within the ranges below; outside them it does not.
-/

namespace WS
open Spec

/-! ## Spec: ranges -/

/-- A map that can be read: generated columns and original lines below `2^31`, original columns below `2^32`, arrays
of at most `2^32` entries. -/
def Spec.MapFits (sources names : List Int) (mappings : List Char) : Prop :=
  sources.length ≤ 4294967296 ∧ names.length ≤ 4294967296 ∧ ∃ ps, points sources names mappings = some ps ∧
    ∀ p ∈ ps, p.col < 2147483648 ∧ ∀ o, p.origin = some o → o.line < 2147483648 ∧ o.col < 4294967296

/-- A replacement between the positions `-2^30` and `2^31 - 2` (positions are kept in 16ths). -/
def Spec.CallFits (c : Call) : Prop :=
  -17179869184 ≤ c.s ∧ c.s < 34359738352 ∧ -17179869184 ≤ c.e ∧ c.e < 34359738352

/-- The map of a `SourceMapSource`: as data, or as a generator with generated columns below `2^31`. -/
def Spec.HolderFits (h : SmHolder) : Prop :=
  (∀ g, h.gen = some g → ∀ m ∈ g.mappings.list, m.generated.2 < 2147483648) ∧
  ∀ d h', h.getData = .ok (d, h') → MapFits d.sources d.names d.mappings

mutual
  /-- A source with maps, replacements and texts within the ranges. -/
  def Spec.TreeFits : Tree → Prop
    | .str s => s.length ≤ 1073741824
    | .raw v => v.length ≤ 1073741824
    | .original v _ _ => v.length ≤ 1073741824
    | .l2l v _ _ => v.length ≤ 1073741824
    | .sms s => s.value.length ≤ 1073741824 ∧ HolderFits s.map ∧ ∀ h, s.inner = some h → HolderFits h
    | .prefixed _ t => TreeFits t
    | .replace t cs => TreeFits t ∧ ∀ c ∈ cs, CallFits c
    | .concat ts => TreesFit ts
  /-- All sources of a list. -/
  def Spec.TreesFit : List Tree → Prop
    | [] => True
    | t :: ts => TreeFits t ∧ TreesFit ts
end

mutual
  /-- The list maps that replacements rewrite have texts of at most `2^30` characters. -/
  def Spec.ListsFit (columns module_ : Bool) : Tree → Prop
    | .prefixed _ t => ListsFit columns module_ t
    | .replace t _ => ListsFit columns module_ t ∧
        ∀ m, t.listMap columns module_ = .ok m → (slmText m).length ≤ 1073741824
    | .concat ts => AllListsFit columns module_ ts
    | _ => True
  /-- All sources of a list. -/
  def Spec.AllListsFit (columns module_ : Bool) : List Tree → Prop
    | [] => True
    | t :: ts => ListsFit columns module_ t ∧ AllListsFit columns module_ ts
end

/-! ## Given maps -/

theorem resolveAll_each {ss ns : List Int} : ∀ {gs : List Seg} {ps : List Point}, resolveAll ss ns gs = some ps →
    ∀ g ∈ gs, ∃ p ∈ ps, g.resolve ss ns = some p
  | [], _, _, _, hg => by cases hg
  | g :: gs, ps, h, x, hx => by
    rw [resolveAll] at h
    split at h
    · rename_i p qs hp hq
      cases h
      rcases List.mem_cons.1 hx with rfl | hx
      · exact ⟨p, List.mem_cons_self .., hp⟩
      · obtain ⟨y, hy, e⟩ := resolveAll_each hq x hx
        exact ⟨y, List.mem_cons_of_mem _ hy, e⟩
    · cases h

theorem Spec.MapFits.parsed {ss ns : List Int} {mp : Str} (h : MapFits ss ns mp) {qs : List Parsed}
    (hq : parseMappings mp = some qs) {q : Parsed} (hm : q ∈ qs) : q.Fits ∧ q.genCol < 2147483648 := by
  obtain ⟨hss, hns, ps, hp, hb⟩ := h
  obtain ⟨qs', e1, e2⟩ := parse_segs hp (fun p hp => by
    obtain ⟨h1, h2⟩ := hb p hp
    exact ⟨by omega, fun o ho => by have := h2 o ho; omega⟩) hss hns
  unfold parseMappings at hq
  rw [e1] at hq
  cases hq
  have hm' : q ∈ qs' := (sortBy_perm qs').mem_iff.1 hm
  unfold points at hp
  rw [e2] at hp
  obtain ⟨p, hpm, hr⟩ := resolveAll_each hp _ (List.mem_map_of_mem hm')
  obtain ⟨b1, b2⟩ := hb p hpm
  obtain ⟨gl, gc, qo⟩ := q
  cases qo with
  | none =>
    obtain ⟨c', hc, rfl⟩ := resolve_none_iff.1 hr
    have : gc = c' := by have := nat?_iff.1 hc; exact Int.ofNat.inj this
    exact ⟨(fun _ _ _ _ e => by cases e), by simpa [this] using b1⟩
  | some o =>
    obtain ⟨si, ol, oc, ni⟩ := o
    obtain ⟨c', ol', oc', a, x, h1, h2, h3, h4, h5, rfl⟩ := resolve_orig_iff.1 hr
    have hc : gc = c' := by have := nat?_iff.1 h1; exact Int.ofNat.inj this
    have ho : ol = ol' := by have := nat?_iff.1 h2; exact Int.ofNat.inj this
    refine ⟨fun _ _ _ _ e => ?_, by simpa [hc] using b1⟩
    cases e
    have := (b2 _ rfl).1
    simp only at this
    omega

theorem Spec.HolderFits.gen {h : SmHolder} (hf : HolderFits h) : h.getGen32 = h.getGen ∧
    ∀ g h', h.getGen = .ok (g, h') → ColsFit g.mappings.list := by
  obtain ⟨data, gen⟩ := h
  cases gen with
  | some g =>
    refine ⟨rfl, fun g' h' e => ?_⟩
    simp only [SmHolder.getGen] at e
    cases e
    exact hf.1 g rfl
  | none =>
    cases data with
    | none => exact ⟨rfl, fun g h e => by cases e⟩
    | some d =>
      have hd := hf.2 d _ rfl
      refine ⟨?_, fun g h e => ?_⟩
      · simp only [SmHolder.getGen32, SmHolder.getGen]
        rw [fromSourceMap32_eq fun qs hq q hm => (hd.parsed hq hm).1]
        rfl
      · simp only [SmHolder.getGen] at e
        split at e
        · cases e
        · rename_i g' eg
          cases e
          exact fromSourceMap_cols (fun qs hq q hm => (hd.parsed hq hm).2) eg

theorem Sms.node32_eq {s : Sms} (h1 : HolderFits s.map) (h2 : ∀ h, s.inner = some h → HolderFits h) :
    s.node32 = s.node := by
  obtain ⟨e1, c1⟩ := h1.gen
  unfold Sms.node32 Sms.node
  rw [e1]
  cases eg : s.map.getGen with
  | error e => rfl
  | ok p =>
    obtain ⟨g, map⟩ := p
    have cg := c1 _ _ eg
    dsimp only
    cases hi : s.inner with
    | none => dsimp only; rw [fromStringWithGenerator32_eq cg]; rfl
    | some ih =>
      obtain ⟨e2, c2⟩ := (h2 ih hi).gen
      dsimp only
      rw [e2]
      cases ei : ih.getGen with
      | error e => rfl
      | ok p =>
        obtain ⟨ig, ih'⟩ := p
        dsimp only
        have cg' : ColsFit (if s.original.isSome = true then g.setSourceContent s.name s.original else g).mappings.list := by
          split
          · exact cg.setSourceContent _ _
          · exact cg
        generalize (if s.original.isSome = true then g.setSourceContent s.name s.original else g) = g1 at cg'
        cases ha : s.innerApplied with
        | true =>
          simp only [if_true]
          rw [fromStringWithGenerator32_eq cg']
          rfl
        | false =>
          simp only [Bool.false_eq_true, if_false]
          cases eb : g1.applySourceMap ig (some s.name) with
          | error e => rfl
          | ok p =>
            obtain ⟨g2, ig2⟩ := p
            dsimp only
            rw [fromStringWithGenerator32_eq (applySourceMap_cols cg' eb)]
            rfl

theorem count_le_length (s : Str) : s.count '\n' ≤ s.length := List.count_le_length

theorem Sms.listMap32_eq {s : Sms} {b : Bool} (h1 : HolderFits s.map) (hs : s.value.length ≤ 1073741824) :
    s.listMap32 b = s.listMap b ∧ ∀ m s', s.listMap b = .ok (m, s') → SlmLow 3221225472 m := by
  have hc := count_le_length s.value
  unfold Sms.listMap32 Sms.listMap
  cases b with
  | false =>
    simp only [Bool.not_false, if_true, true_and]
    intro m s' e
    cases e
    exact slmNewStr_low (by omega)
  | true =>
    simp only [Bool.not_true, Bool.false_eq_true, if_false]
    cases eg : s.map.getData with
    | error e => exact ⟨rfl, fun _ _ e => by cases e⟩
    | ok p =>
      obtain ⟨d, map⟩ := p
      obtain ⟨l1, l2, ps, hp, hb⟩ := h1.2 d map eg
      obtain ⟨m, m1, m2, m3⟩ := slmFromString32_eq (code := s.value) (contents := d.contents) hp l1 (L := 2147483648)
        (fun p hp o ho => by have := (hb p hp).2 o ho; omega) (by omega)
      dsimp only
      rw [m1, m2]
      refine ⟨rfl, fun m' s' e => ?_⟩
      cases e
      exact m3.mono (by omega)

/-! ## Replacements -/

theorem near_of_calls {cs : List Call} (h : ∀ c ∈ cs, CallFits c) : ∀ r ∈ sortedCalls cs, r.Near := by
  have ht : ∀ (cs : List Call) (n : Nat), (∀ c ∈ cs, CallFits c) → ∀ r ∈ tag n cs, r.Near := by
    intro cs
    induction cs with
    | nil => intro n _ r hr; cases hr
    | cons c cs ih =>
      intro n h r hr
      rcases List.mem_cons.1 hr with rfl | hr
      · obtain ⟨a1, a2, a3, a4⟩ := h c (List.mem_cons_self ..)
        refine ⟨?_, ?_, ?_, ?_⟩ <;> (dsimp only; omega)
      · exact ih (n + 1) (fun x hx => h x (List.mem_cons_of_mem _ hx)) r hr
  intro r hr
  exact ht cs 0 h r ((sortBy_perm _).mem_iff.1 hr)

/-! ## Texts -/

mutual
  /-- **C71 (texts).** -/
  theorem C71_text : ∀ {t : Tree}, TreeFits t → t.source32 = .ok t.text
    | .str _, _ | .raw _, _ | .original .., _ | .l2l .., _ | .sms _, _ => rfl
    | .prefixed p t, h => by
      rw [Tree.source32, C71_text (t := t) (by rw [TreeFits] at h; exact h)]
      simp only [Except.map, Tree.text, makePrefixed_eq]
    | .replace t cs, h => by
      rw [TreeFits] at h
      rw [Tree.source32, C71_text h.1]
      simp only [Except.bind]
      rw [replaceString32_eq (near_of_calls h.2), replaceString_eq]
      rfl
    | .concat ts, h => by
      rw [TreeFits] at h
      rw [Tree.source32, C71_texts h]
      rfl
  /-- Texts of a list. -/
  theorem C71_texts : ∀ {ts : List Tree}, TreesFit ts → Tree.sources32 ts = .ok (Tree.texts ts)
    | [], _ => rfl
    | t :: ts, h => by
      rw [TreesFit] at h
      rw [Tree.sources32, C71_text h.1, C71_texts h.2]
      rfl
end

/-! ## Column maps -/

mutual
  /-- **C71 (nodes).** -/
  theorem C71_node (c b : Bool) : ∀ {t : Tree}, TreeFits t → t.node32 c b = t.node c b
    | .str _, _ | .raw _, _ | .original .., _ | .l2l .., _ => rfl
    | .sms s, h => by
      rw [TreeFits] at h
      rw [Tree.node32, Tree.node, Sms.node32_eq h.2.1 h.2.2]
    | .prefixed p t, h => by
      rw [TreeFits] at h
      rw [Tree.node32, Tree.node, C71_node c b h]
    | .replace t cs, h => by
      rw [TreeFits] at h
      rw [Tree.node32, Tree.node, C71_node c b h.1]
      congr 1
      funext n
      exact replaceNode32_eq (near_of_calls h.2)
    | .concat ts, h => by
      rw [TreeFits] at h
      rw [Tree.node32, Tree.node, C71_nodes c b h]
  /-- Nodes of a list. -/
  theorem C71_nodes (c b : Bool) : ∀ {ts : List Tree}, TreesFit ts → Tree.nodes32 c b ts = Tree.nodes c b ts
    | [], _ => rfl
    | t :: ts, h => by
      rw [TreesFit] at h
      cases t with
      | str s => rw [Tree.nodes32, Tree.nodes, C71_nodes c b h.2]
      | _ =>
        rw [Tree.nodes32, Tree.nodes, C71_node c b h.1, C71_nodes c b h.2] <;> (intro s e; cases e)
end

/-! ## Line maps -/

mutual
  theorem listMap_fits (c b : Bool) : ∀ {t : Tree}, TreeFits t → ListsFit c b t → t.depth ≤ 536870912 →
      t.listMap32 c b = t.listMap c b ∧ ∀ m, t.listMap c b = .ok m → SlmLow (3221225472 + t.depth) m
    | .str _, _, _, _ => ⟨rfl, fun m e => by cases e⟩
    | .raw v, h, _, _ => by
      rw [TreeFits] at h
      have := count_le_length v
      refine ⟨rfl, fun m e => ?_⟩
      cases e
      exact slmNewStr_low (by omega)
    | .original v _ _, h, _, _ => by
      rw [TreeFits] at h
      have := count_le_length v
      refine ⟨rfl, fun m e => ?_⟩
      cases e
      exact slmNewStr_low (by omega)
    | .l2l v _ _, h, _, _ => by
      rw [TreeFits] at h
      have := count_le_length v
      refine ⟨rfl, fun m e => ?_⟩
      cases e
      exact slmNewStr_low (by omega)
    | .sms s, h, _, _ => by
      rw [TreeFits] at h
      obtain ⟨h1, h2⟩ := Sms.listMap32_eq (b := b) h.2.1 h.1
      rw [Tree.listMap32, Tree.listMap, h1]
      refine ⟨rfl, fun m e => ?_⟩
      cases el : s.listMap b with
      | error e' => rw [el] at e; cases e
      | ok p =>
        obtain ⟨m', s'⟩ := p
        rw [el] at e
        cases e
        exact (h2 _ _ el).mono (by omega)
    | .prefixed p t, h, hl, hd => by
      rw [TreeFits] at h
      rw [ListsFit] at hl
      rw [Tree.depth] at hd ⊢
      obtain ⟨h1, h2⟩ := listMap_fits c b h hl (by omega)
      rw [Tree.listMap32, Tree.listMap, h1]
      cases e : t.listMap c b with
      | error e' => exact ⟨rfl, fun m e => by cases e⟩
      | ok m =>
        obtain ⟨p1, p2⟩ := prefixListMap_low (by omega) p (h2 m e)
        simp only [Except.map, p1, true_and]
        intro m' e'
        cases e'
        exact p2.mono (by omega)
    | .replace t cs, h, hl, hd => by
      rw [TreeFits] at h
      rw [ListsFit] at hl
      rw [Tree.depth] at hd ⊢
      obtain ⟨h1, h2⟩ := listMap_fits c b h.1 hl.1 (by omega)
      rw [Tree.listMap32, Tree.listMap, h1]
      cases e : t.listMap c b with
      | error e' => exact ⟨rfl, fun m e => by cases e⟩
      | ok m =>
        obtain ⟨p1, p2⟩ := replaceListMap_low (by omega) (near_of_calls h.2) (h2 m e) (hl.2 m e)
        simp only [Except.map, p1, true_and]
        intro m' e'
        cases e'
        exact p2.mono (by omega)
    | .concat ts, h, hl, hd => by
      rw [TreeFits] at h
      rw [ListsFit] at hl
      rw [Tree.depth] at hd ⊢
      obtain ⟨h1, h2⟩ := listMaps_fit c b h hl (by omega)
      rw [Tree.listMap32, Tree.listMap, h1]
      refine ⟨rfl, fun m e => ?_⟩
      cases el : Tree.listMaps c b ts with
      | error e' => rw [el] at e; cases e
      | ok xs =>
        rw [el] at e
        cases e
        exact (concatMaps_low SlmLow.nil (h2 xs el)).mono (by omega)
  theorem listMaps_fit (c b : Bool) : ∀ {ts : List Tree}, TreesFit ts → AllListsFit c b ts →
      Tree.depths ts ≤ 536870912 →
      Tree.listMaps32 c b ts = Tree.listMaps c b ts ∧ ∀ xs, Tree.listMaps c b ts = .ok xs →
        ∀ x ∈ xs, ∀ m, x = .inr m → SlmLow (3221225472 + Tree.depths ts) m
    | [], _, _, _ => ⟨rfl, fun xs e x hx => by cases e; cases hx⟩
    | t :: ts, h, hl, hd => by
      rw [TreesFit] at h
      rw [AllListsFit] at hl
      rw [Tree.depths] at hd ⊢
      obtain ⟨h1, h2⟩ := listMaps_fit c b h.2 hl.2 (by omega)
      by_cases hs : ∃ s, t = .str s
      · obtain ⟨s, rfl⟩ := hs
        rw [Tree.listMaps32, Tree.listMaps, h1]
        refine ⟨rfl, fun xs e x hx m em => ?_⟩
        cases el : Tree.listMaps c b ts with
        | error e' => rw [el] at e; cases e
        | ok ys =>
          rw [el] at e
          cases e
          rcases List.mem_cons.1 hx with rfl | hx
          · cases em
          · exact (h2 ys el x hx m em).mono (by omega)
      · obtain ⟨k1, k2⟩ := listMap_fits c b h.1 hl.1 (by omega)
        have hs' : ∀ s, t = .str s → False := fun s e => hs ⟨s, e⟩
        have e32 : Tree.listMaps32 c b (t :: ts) = (t.listMap32 c b).bind fun n =>
            (Tree.listMaps32 c b ts).map (.inr n :: ·) := by
          rw [Tree.listMaps32]; exact hs'
        have e0 : Tree.listMaps c b (t :: ts) = (t.listMap c b).bind fun n =>
            (Tree.listMaps c b ts).map (.inr n :: ·) := by
          rw [Tree.listMaps]; exact hs'
        rw [e32, e0, h1, k1]
        refine ⟨rfl, fun xs e x hx m em => ?_⟩
        cases et : t.listMap c b with
        | error e' => rw [et] at e; cases e
        | ok n =>
          rw [et] at e
          cases el : Tree.listMaps c b ts with
          | error e' => rw [el] at e; cases e
          | ok ys =>
            rw [el] at e
            cases e
            rcases List.mem_cons.1 hx with rfl | hx
            · cases em
              exact (k2 _ et).mono (by omega)
            · exact (h2 ys el x hx m em).mono (by omega)
end

/-- **C71 (list maps).** -/
theorem C71_lines {c b : Bool} {t : Tree} (h : TreeFits t) (hl : ListsFit c b t) (hd : t.depth ≤ 536870912) :
    t.listMap32 c b = t.listMap c b := (listMap_fits c b h hl hd).1

/-- **C71 (line maps).** Writing the list map out. -/
theorem C71_emit {c b : Bool} {t : Tree} (h : TreeFits t) (hl : ListsFit c b t) (hd : t.depth ≤ 536870912) {m : Slm}
    (e : t.listMap c b = .ok m) (file : Option Int) :
    slmToStringWithSourceMap32 m file = slmToStringWithSourceMap m file :=
  slmToString_low (by omega) ((listMap_fits c b h hl hd).2 m e) file

/-! ## Outside the ranges -/

/-- A `SourceMapSource` with one source. -/
def C71_mapped (v mappings : List Char) : Tree :=
  .sms ⟨v, 0, 1, ⟨some ⟨[5], [6], [], mappings⟩, none⟩, none, none, false⟩

/-- The mappings of the map written for a node. -/
def C71_columns (n : M SmNode) : M Str :=
  n.bind fun n => (n.toStringWithSourceMap none none).map (·.map.mappings)

/-- A generated column of `2^31`: the text comes from line 2 instead of line 1. -/
theorem C71_not_columns :
    (points [5] [] "AAAA,ggggggEACA".toList).map (List.map fun p => (p.line, p.col)) = some [(1, 0), (1, 2147483648)] ∧
    C71_columns ((C71_mapped "ab".toList "AAAA,ggggggEACA".toList).node true true) = .ok "AAAA".toList ∧
    C71_columns ((C71_mapped "ab".toList "AAAA,ggggggEACA".toList).node32 true true) = .ok "AACA".toList := by
  decide +kernel

/-- An original line of `2^32`: read as line 0. -/
theorem C71_not_lines :
    points [5] [] "AA+/////HA".toList = some [⟨1, 0, some ⟨5, 4294967296, 0, none⟩⟩] ∧
    C71_columns ((C71_mapped "ab".toList "AA+/////HA".toList).node true true) = .ok "AA+/////HA".toList ∧
    C71_columns ((C71_mapped "ab".toList "AA+/////HA".toList).node32 true true) = .ok "AADA".toList := by
  decide +kernel

/-- Original lines up to `2^32` in a line map: the second line is read as line 0, or as the line after the first. -/
theorem C71_not_list :
    ((C71_mapped "ab\nc".toList "AA8/////HA;AACA".toList).listMap false true).map (List.map LNode.text) = .ok
      ["ab\n".toList, "c".toList] ∧
    ((C71_mapped "ab\nc".toList "AA8/////HA;AACA".toList).listMap32 false true).map (List.map LNode.text) = .ok ["ab\nc".toList] := by
  decide +kernel

/-- A replacement up to position `2^31 - 1`: nothing is removed. -/
theorem C71_not_replace :
    (Tree.replace (.raw "ab".toList) [⟨0, 2147483647 * 16, "x".toList⟩]).text = "x".toList ∧
    (Tree.replace (.raw "ab".toList) [⟨0, 2147483647 * 16, "x".toList⟩]).source32 = .ok "xab".toList := by
  decide +kernel

/-! ## A concrete case -/

/-- A map with two points, a prefix and a replacement in one source. -/
def C71_tree : Tree :=
  .concat [.prefixed "> ".toList (C71_mapped "ab\ncd".toList "AAAA;AACA".toList), .str "s".toList,
    .replace (.original "pq\nr".toList 7 8) [⟨16, 32, "X\n".toList⟩]]

example : TreeFits C71_tree ∧ ListsFit false true C71_tree ∧ C71_tree.depth ≤ 536870912 := by
  have hm : HolderFits ⟨some ⟨[5], [6], [], "AAAA;AACA".toList⟩, none⟩ := by
    refine ⟨(fun g e => by cases e), fun d h' e => ?_⟩
    cases e
    refine ⟨by decide, by decide, [⟨1, 0, some ⟨5, 1, 0, none⟩⟩, ⟨2, 0, some ⟨5, 2, 0, none⟩⟩], by decide +kernel, ?_⟩
    intro p hp
    simp only [List.mem_cons, List.not_mem_nil, or_false] at hp
    rcases hp with rfl | rfl
    · exact ⟨by decide, fun o e => by cases e; exact ⟨by decide, by decide⟩⟩
    · exact ⟨by decide, fun o e => by cases e; exact ⟨by decide, by decide⟩⟩
  refine ⟨?_, ?_, by decide⟩
  · simp only [C71_tree, C71_mapped, TreeFits, TreesFit]
    refine ⟨⟨by decide, hm, fun h e => by cases e⟩, by decide, ⟨by decide, fun c hc => ?_⟩, trivial⟩
    cases List.mem_singleton.1 hc
    exact ⟨by decide, by decide, by decide, by decide⟩
  · simp only [C71_tree, C71_mapped, ListsFit, AllListsFit]
    refine ⟨trivial, trivial, ⟨trivial, fun m e => ?_⟩, trivial⟩
    cases e
    decide

example : (C71_tree.listMap32 false true).map (fun m => slmToStringWithSourceMap32 m none |>.map.mappings) =
    .ok "AAAA;AACA,KCDA;AACA".toList := by
  decide +kernel

end WS
