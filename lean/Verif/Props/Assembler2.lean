import Verif.Lemmas.Asm2
import Verif.Lemmas.Layout
import Verif.Props.Assembler
/-!
# C13 – C16: `peak.assembler2`

`T.build2` is `assembler2.Assembler(T)`.
-/

namespace Peak
open Peak.Spec

/-! ## C13: the two generations agree -/

/-- C13: for every type and value, and after every history of constructions, the two assemblers have the same width and give the
same opcode. -/
theorem C13_same_opcode (hist : List Ty) (t : Ty) (v : Val) (hw : WF t) (hv : t.Has v) :
    ∃ o1 o2 b, assemblerAfter hist t = .ok o1 ∧ t.build2 = .ok o2 ∧ o1.width = o2.width ∧
      o1.assemble v = .ok b ∧ o2.asm v = .ok b := by
  obtain ⟨o, ho⟩ := assemblerAfter_ok hist t hw
  have hg := build_any hist t hw (build_of_after ho)
  obtain ⟨o2, ho2, hg2⟩ := build2_ok t hw
  exact ⟨o, o2, _, ho, ho2, hg.width.trans hg2.width.symm, hg.assemble hw hv, hg2.asm_ok v hv⟩

example : WF demoIsa ∧ demoIsa.Has demoVal := ⟨demoIsa_wf, demoVal_has⟩

/-- The two generations also decode alike: whatever the first returns on a pattern of the right width, the second returns. -/
theorem C13_same_decoding (hist : List Ty) (t : Ty) (hw : WF t) (o1 : AsmObj) (o2 : Asm2) (b : BV) (v : Val)
    (h1 : assemblerAfter hist t = .ok o1) (h2 : t.build2 = .ok o2) (hb : b.size = o1.width)
    (hd : o1.disassemble b = .ok v) : o2.dsm b = .ok v := by
  have hg := build_any hist t hw (build_of_after h1)
  obtain ⟨o2', ho2, hg2⟩ := build2_ok t hw
  rw [h2, Except.ok.injEq] at ho2; subst ho2
  rw [hg.width] at hb
  exact (hg2.dsm_iff b v hb).2 (hg.disassemble_sound hb hd)

/-! ## C14: round trip -/

/-- C14: the round trip of `assembler2` holds for every value of every type. -/
theorem C14_round_trip2 (t : Ty) (v : Val) (hw : WF t) (hv : t.Has v) :
    ∃ o b, t.build2 = .ok o ∧ o.asm v = .ok b ∧ b.size = o.width ∧ o.dsm b = .ok v := by
  obtain ⟨o, ho, hg⟩ := build2_ok t hw
  obtain ⟨h1, h2⟩ := encode_spec t hw v hv
  refine ⟨o, _, ho, hg.asm_ok v hv, hg.width.symm, (hg.dsm_iff _ v rfl).2 ?_⟩
  rw [ofNat_val_of_lt h1]; exact h2

example : WF narrowUnion ∧ narrowUnion.Has (.sum 0 (.bits (BV.ofNat 2 3))) := narrow_wf

/-- `assembler2` decodes a pattern exactly when it spells a value, and then to that value. -/
theorem C14_decode_exact (t : Ty) (hw : WF t) : ∃ o, t.build2 = .ok o ∧
    ∀ b v, b.size = o.width → (o.dsm b = .ok v ↔ Reads t b.val v) := by
  obtain ⟨o, ho, hg⟩ := build2_ok t hw
  exact ⟨o, ho, fun b v hb => hg.dsm_iff b v (by rw [hb, hg.width])⟩

/-! ## C15: extract and match -/

theorem rows2_get : ∀ (fs : Fields) (l : List (Key × Ty × Asm2)) (vs : List Val) (base i : Nat) (k : Key) (t : Ty) (v : Val),
    Good2All fs l → WFs fs → fs.HasAll vs → fs.toList[i]? = some (k, t) → vs[i]? = some v →
    t.Has v ∧ ∃ o off, t.build2 = .ok o ∧ Good2 t o ∧
      (rows2 (strip2 l) base)[i]? = some ⟨k, o, base + off, base + off + width t⟩ ∧ off + width t ≤ sumWidths fs ∧
      encodeAll fs vs / 2 ^ off % 2 ^ width t = encode t v
  | .nil, l, vs, base, i, k, t, v, _, _, _, hi, _ => by simp [Fields.toList] at hi
  | .cons k0 t0 fs, l, vs, base, i, k, t, v, hg, hw, hv, hi, hvi => by
    cases l with
    | nil => simp only [Good2All] at hg
    | cons p l =>
      obtain ⟨k', t', o⟩ := p
      simp only [Good2All] at hg
      obtain ⟨rfl, rfl, h1, h2, hgs⟩ := hg
      cases vs with
      | nil => simp only [Fields.HasAll] at hv
      | cons v0 vs =>
        simp only [Fields.HasAll] at hv
        have he := (encode_spec _ hw.1 v0 hv.1).1
        cases i with
        | zero =>
          simp only [Fields.toList, List.getElem?_cons_zero, Option.some.injEq, Prod.mk.injEq] at hi hvi
          obtain ⟨rfl, rfl⟩ := hi
          subst hvi
          refine ⟨hv.1, o, 0, h1, h2, ?_, ?_, ?_⟩
          · simp [strip2, rows2, h2.width]
          · simp [sumWidths]
          · rw [encodeAll, Nat.pow_zero, Nat.div_one, Nat.add_mul_mod_self_left, Nat.mod_eq_of_lt he]
        | succ i =>
          simp only [Fields.toList, List.getElem?_cons_succ] at hi hvi
          obtain ⟨a1, o', off, a2, a3, a4, a5, a6⟩ := rows2_get fs l vs (base + width t') i k t v hgs hw.2 hv.2 hi hvi
          refine ⟨a1, o', width t' + off, a2, a3, ?_, ?_, ?_⟩
          · simp only [strip2, List.map_cons, rows2, List.getElem?_cons_succ, h2.width] at a4 ⊢
            rw [a4, Nat.add_assoc]
          · simp only [sumWidths]; omega
          · rw [encodeAll, Nat.pow_add, ← Nat.div_div_eq_div_mul, Nat.add_mul_div_left _ _ (Nat.two_pow_pos _),
              Nat.div_eq_of_lt he, Nat.zero_add, a6]

theorem rows2_find : ∀ (l : List (Key × Asm2)) (base i : Nat) (r : Row2), (l.map (·.1)).Nodup →
    (rows2 l base)[i]? = some r → (rows2 l base).find? (fun x => x.key == r.key) = some r
  | [], base, i, r, _, h => by simp [rows2] at h
  | (k, o) :: l, base, i, r, hn, h => by
    cases i with
    | zero =>
      simp only [rows2, List.getElem?_cons_zero, Option.some.injEq] at h
      subst h; simp [rows2]
    | succ i =>
      simp only [rows2, List.getElem?_cons_succ] at h
      simp only [List.map_cons, List.nodup_cons] at hn
      have hmem : ∀ (l : List (Key × Asm2)) (base : Nat), r ∈ rows2 l base → r.key ∈ l.map (·.1) := by
        intro l
        induction l with
        | nil => simp [rows2]
        | cons p l ih =>
          intro base hr
          simp only [rows2, List.mem_cons] at hr
          rcases hr with rfl | hr
          · simp
          · simp [ih _ hr]
      have hne : (k == r.key) = false := by
        rw [beq_eq_false_iff_ne]
        intro he
        exact hn.1 (he ▸ hmem l _ (List.mem_of_getElem? h))
      simp only [rows2, List.find?_cons, hne]
      exact rows2_find l _ i r hn.2 h

/-- C15, products: `extract` of field `i` (named `k`), by name or by position, is the assembly of that field. -/
theorem C15_extract_field (c : Nat) (fs : Fields) (vs : List Val) (i : Nat) (k : Key) (t : Ty) (v : Val)
    (hw : WF (.prod c fs)) (hv : (Ty.prod c fs).Has (.prod vs)) (hi : fs.toList[i]? = some (k, t)) (hvi : vs[i]? = some v) :
    ∃ o b ot bt, (Ty.prod c fs).build2 = .ok o ∧ o.asm (.prod vs) = .ok b ∧ t.build2 = .ok ot ∧ ot.asm v = .ok bt ∧
      o.extract b (.name k) = .ok bt ∧ o.extract b (.pos i) = .ok bt := by
  obtain ⟨l, h1, h2⟩ := build2All_ok fs hw.2
  have hg := tuple2_good hw h2
  have hv' : fs.HasAll vs := hv
  obtain ⟨a1, o', off, a2, a3, a4, a5, a6⟩ := rows2_get fs l vs 0 i k t v h2 hw.2 hv' hi hvi
  have hnd : ((strip2 l).map (·.1)).Nodup := by
    have := hw.1
    rw [← good2All_strip fs l h2, List.map_map] at this
    simpa [strip2, Function.comp_def] using this
  have hs : (BV.ofNat (sumWidths fs) (encodeAll fs vs)).slice (0 + off) (0 + off + width t) =
      BV.ofNat (width t) (encode t v) := by
    obtain ⟨f1, f2⟩ := slice_field (b := BV.ofNat (sumWidths fs) (encodeAll fs vs)) (base := 0 + off) (w := width t)
      (by simp; omega)
    have hlt := (encodeAll_spec fs hw.2 vs hv').1
    apply BV.ext
    · exact f1
    · rw [f2, ofNat_val_of_lt hlt, Nat.zero_add, a6, ofNat_val_of_lt (encode_spec t ?_ v a1).1]
      exact wfs_mem fs hw.2 i k t hi
  refine ⟨tuple2 (strip2 l), _, o', _, by rw [Ty.build2, h1]; rfl, hg.asm_ok _ hv, a2, a3.asm_ok v a1, ?_, ?_⟩
  · have := rows2_find (strip2 l) 0 i _ hnd a4
    simp only [tuple2]
    rw [this]
    exact congrArg Except.ok hs
  · simp only [tuple2]
    rw [a4]
    exact congrArg Except.ok hs

example : WF (.prod 11 (.cons 0 (.enum 12 [.lit 2, .auto 0, .auto 1]) (.cons 1 (.bv 13 5) .nil))) ∧
    (Ty.prod 11 (.cons 0 (.enum 12 [.lit 2, .auto 0, .auto 1]) (.cons 1 (.bv 13 5) .nil))).Has
      (.prod [.enum (.auto 1), .bits (BV.ofNat 5 19)]) :=
  ⟨by simp [WF, WFs, Fields.toList, autos], by simp [Ty.Has, Fields.HasAll, BV.ofNat]⟩

theorem optsFrom_mem (tw : Nat) (r : Opt2) : ∀ (l : List (Key × Ty × Asm2)) (t0 : Nat),
    r ∈ optsFrom tw l t0 ↔ ∃ (i : Nat), l[i]? = some (r.key, r.ty, r.obj) ∧ r.tag = t0 + i ∧ r.lo = tw ∧ r.hi = tw + r.obj.width
  | [], t0 => by simp [optsFrom]
  | (k, t, o) :: l, t0 => by
    simp only [optsFrom, List.mem_cons, optsFrom_mem tw r l (t0 + 1)]
    constructor
    · rintro (rfl | ⟨i, h1, h2, h3⟩)
      · exact ⟨0, by simp⟩
      · exact ⟨i + 1, by simpa using h1, by omega, h3⟩
    · rintro ⟨i, h1, h2, h3, h4⟩
      cases i with
      | zero =>
        simp only [List.getElem?_cons_zero, Option.some.injEq, Prod.mk.injEq] at h1
        obtain ⟨r1, r2, r3, r4, r5, r6⟩ := r
        simp only at h1 h2 h3 h4
        obtain ⟨rfl, rfl, rfl⟩ := h1
        subst h2 h3 h4
        exact Or.inl rfl
      | succ i => exact Or.inr ⟨i, by simpa using h1, by omega, h3, h4⟩

theorem tag_slice {tw w n : Nat} {tag : Nat} (ht : tag < 2 ^ tw) (hw : tw ≤ w) (b : BV) (hb : b.size = w)
    (hv : b.val = tag + 2 ^ tw * n) : (b.slice 0 tw) = BV.ofNat tw tag := by
  obtain ⟨f1, f2⟩ := slice_field (b := b) (base := 0) (w := tw) (by omega)
  rw [Nat.zero_add] at f1 f2
  apply BV.ext
  · exact f1
  · rw [f2, hv, Nat.pow_zero, Nat.div_one, Nat.add_mul_mod_self_left, ofNat_val_of_lt ht, Nat.mod_eq_of_lt ht]

/-- C15, unions: on the assembly of a value holding option `k` (of type `t`), `match` by name is true for `k` only, `match` by type
is true for `t` only, and `extract` by that name or type is the assembly of the payload. -/
theorem C15_match_extract_union (c : Nat) (fs : Fields) (k : Key) (t : Ty) (v : Val)
    (hw : WF (.sum c fs)) (hk : (k, t) ∈ fs.toList) (hv : t.Has v) :
    ∃ o b ot bt, (Ty.sum c fs).build2 = .ok o ∧ o.asm (.sum k v) = .ok b ∧ t.build2 = .ok ot ∧ ot.asm v = .ok bt ∧
      o.extract b (.name k) = .ok bt ∧ o.extract b (.type t) = .ok bt ∧
      (∀ k' t', (k', t') ∈ fs.toList → o.mtch b (.name k') = .ok (decide (k' = k))) ∧
      (∀ t', o.mtch b (.type t') = .ok (decide (t' = t))) := by
  obtain ⟨i, hi⟩ := List.getElem?_of_mem hk
  obtain ⟨l, hl, hgl⟩ := build2All_ok fs hw.2.2
  obtain ⟨h1, h2, h3, hnd⟩ := sum2_eq hw hgl
  obtain ⟨o, hsum, hg⟩ := sum2_ok hw hgl
  have hv' : (Ty.sum c fs).Has (.sum k v) := (hasAt_iff hw.2.1 k v).2 ⟨i, t, hi, hv⟩
  obtain ⟨ot, hot⟩ := (good2All_get fs l hgl i k t).1 hi
  obtain ⟨hbt, hgt⟩ := good2All_mem fs l hgl _ (List.mem_of_getElem? hot)
  simp only at hbt hgt
  have hidx := optionIndex_of_get hw.2.1 hi
  have hfit := lt_tagBits (List.getElem?_eq_some_iff.1 hi).1
  have hwt := wfs_mem fs hw.2.2 i k t hi
  have he := (encode_spec t hwt v hv).1
  have hle := width_le_maxWidth fs i k t hi
  have hlt := (encode_spec _ hw _ hv').1
  have henc : encode (.sum c fs) (.sum k v) = i + 2 ^ tagBits fs.toList.length * encode t v := by
    simp only [encode, hidx, encodeAt_get fs k v t (by rw [hidx]; exact hi)]
  refine ⟨o, _, ot, _, by rw [Ty.build2, hl]; exact hsum, hg.asm_ok _ hv', hbt, hgt.asm_ok v hv, ?_⟩
  simp only [sum2, h1, if_neg h3, Except.ok.injEq] at hsum
  generalize hb : BV.ofNat (width (.sum c fs)) (encode (.sum c fs) (.sum k v)) = b
  have hbs : b.size = tagBits fs.toList.length + maxWidth fs := by rw [← hb]; rfl
  have hbv : b.val = i + 2 ^ tagBits fs.toList.length * encode t v := by
    rw [← hb, ofNat_val_of_lt hlt, henc]
  have htag := tag_slice (w := b.size) hfit (by omega) b rfl hbv
  have hpay : b.slice (tagBits fs.toList.length) (tagBits fs.toList.length + ot.width) = BV.ofNat (width t) (encode t v) := by
    rw [hgt.width]
    obtain ⟨f1, f2⟩ := slice_field (b := b) (base := tagBits fs.toList.length) (w := width t) (by omega)
    apply BV.ext
    · exact f1
    · rw [f2, hbv, Nat.add_mul_div_left _ _ (Nat.two_pow_pos _), Nat.div_eq_of_lt hfit, Nat.zero_add,
        ofNat_val_of_lt he, Nat.mod_eq_of_lt he]
  rw [← hsum]
  simp only [h2]
  refine ⟨?_, ?_, ?_, ?_⟩
  · rw [optsFrom_key _ l 0 i k t ot hnd hot]
    simp only [hpay]
  · cases hf : (optsFrom (tagBits fs.toList.length) l 0).find? (fun r => r.ty == t) with
    | none =>
      exfalso
      rw [List.find?_eq_none] at hf
      exact hf ⟨k, t, ot, 0 + i, tagBits fs.toList.length, tagBits fs.toList.length + ot.width⟩ ((optsFrom_mem _ _ l 0).2 ⟨i, hot, rfl, rfl, rfl⟩) (by simp)
    | some r =>
      have hr := (List.find?_some hf :)
      rw [beq_iff_eq] at hr
      obtain ⟨j, hj, _, r1, r2⟩ := (optsFrom_mem _ _ l 0).1 (List.mem_of_find?_eq_some hf)
      have := (good2All_mem fs l hgl _ (List.mem_of_getElem? hj)).1
      simp only [hr, hbt, Except.ok.injEq] at this
      simp only [r1, r2, ← this, hpay]
  · intro k' t' hk'
    obtain ⟨j, hj⟩ := List.getElem?_of_mem hk'
    obtain ⟨oj, hoj⟩ := (good2All_get fs l hgl j k' t').1 hj
    rw [optsFrom_key _ l 0 j k' t' oj hnd hoj]
    simp only [htag, BV.eqInt, BV.ofNat_val, BV.ofNat_size, Except.ok.injEq, Nat.zero_add]
    have hfj := lt_tagBits (List.getElem?_eq_some_iff.1 hj).1
    rw [Nat.mod_eq_of_lt hfit, Nat.mod_eq_of_lt hfj]
    have hidj := optionIndex_of_get hw.2.1 hj
    by_cases hkk : k' = k
    · subst hkk; simp [← hidx, ← hidj]
    · have : i ≠ j := by
        intro hij; subst hij
        rw [hi] at hj; simp at hj; exact hkk hj.1.symm
      simp [hkk, this]
  · intro t'
    rw [foldl_or_any, Bool.false_or, Except.ok.injEq, Bool.eq_iff_iff, List.any_eq_true, decide_eq_true_eq]
    constructor
    · rintro ⟨r, hr, hrt⟩
      obtain ⟨hr1, hr2⟩ := List.mem_filter.1 hr
      obtain ⟨j, hj, hrj, _⟩ := (optsFrom_mem _ _ l 0).1 hr1
      have hfj := (good2All_get fs l hgl j r.key r.ty).2 ⟨_, hj⟩
      have hfitj := lt_tagBits (List.getElem?_eq_some_iff.1 hfj).1
      simp only [htag, BV.eqInt, BV.ofNat_val, BV.ofNat_size, beq_iff_eq, hrj, Nat.zero_add] at hrt
      rw [Nat.mod_eq_of_lt hfit, Nat.mod_eq_of_lt hfitj] at hrt
      subst hrt
      rw [hi] at hfj
      simp only [Option.some.injEq, Prod.mk.injEq] at hfj
      rw [beq_iff_eq] at hr2
      rw [← hr2, hfj.2]
    · rintro rfl
      refine ⟨⟨k, t', ot, 0 + i, tagBits fs.toList.length, tagBits fs.toList.length + ot.width⟩, List.mem_filter.2 ⟨(optsFrom_mem _ _ l 0).2 ⟨i, hot, rfl, rfl, rfl⟩, by simp⟩, ?_⟩
      simp [htag, BV.eqInt]

example : WF demoIsa ∧ (3, Ty.bv 15 1) ∈ (Fields.cons 0 (.prod 11 (.cons 0 (.enum 12 [.lit 2, .auto 0, .auto 1]) (.cons 1 (.bv 13 5) .nil)))
    (.cons 1 (.bit 14) (.cons 2 (.bv 15 1) (.cons 3 (.bv 15 1) .nil)))).toList ∧ (Ty.bv 15 1).Has (.bits (BV.ofNat 1 1)) :=
  ⟨demoIsa_wf, by simp [Fields.toList], by simp [Ty.Has, BV.ofNat]⟩

/-- C15, enums: `match` of an assembled member against a member is true exactly for that member. -/
theorem C15_match_enum (c : Nat) (ms : List EVal) (e e' : EVal) (hw : WF (.enum c ms)) (he : e ∈ ms) (he' : e' ∈ ms) :
    ∃ o b, (Ty.enum c ms).build2 = .ok o ∧ o.asm (.enum e) = .ok b ∧
      (o.mtch b (.member e') = .ok true ↔ ∃ b', o.asm (.enum e') = .ok b' ∧ b = b') ∧
      (o.mtch b (.member e') = .ok (decide (e' = e))) := by
  obtain ⟨o, h1, hg, hm⟩ := enum2_ok c hw
  have hv : (Ty.enum c ms).Has (.enum e) := he
  have hv' : (Ty.enum c ms).Has (.enum e') := he'
  have hlt := (encode_spec _ hw _ hv).1
  have hlt' := (encode_spec _ hw _ hv').1
  have hinj : encode (.enum c ms) (.enum e) = encode (.enum c ms) (.enum e') ↔ e' = e := by
    constructor
    · intro h
      have r1 := (encode_spec _ hw _ hv).2
      have r2 := (encode_spec _ hw _ hv').2
      rw [h] at r1
      have := reads_unique _ hw _ _ _ r1 r2
      simp only [Val.enum.injEq] at this
      exact this.symm
    · rintro rfl; rfl
  have hmm : o.mtch (BV.ofNat (width (.enum c ms)) (encode (.enum c ms) (.enum e))) (.member e') = .ok (decide (e' = e)) := by
    rw [hm _ e' he', Except.ok.injEq, Bool.eq_iff_iff, decide_eq_true_eq, ← hinj]
    simp only [BV.eqInt, BV.ofNat_val, BV.ofNat_size, beq_iff_eq]
    rw [Nat.mod_eq_of_lt hlt]
    simp only [encode] at hlt' ⊢
    rw [Nat.mod_eq_of_lt hlt']
  refine ⟨o, _, by rw [Ty.build2]; exact h1, hg.asm_ok _ hv, ?_, hmm⟩
  rw [hmm, Except.ok.injEq, decide_eq_true_eq]
  constructor
  · rintro rfl; exact ⟨_, hg.asm_ok _ hv', rfl⟩
  · rintro ⟨b', hb', h⟩
    rw [hg.asm_ok _ hv', Except.ok.injEq] at hb'
    subst hb'
    apply hinj.1
    have := congrArg BV.val h
    rwa [ofNat_val_of_lt hlt, ofNat_val_of_lt hlt'] at this

example : WF (.enum 12 [.lit 2, .auto 0, .auto 1]) := by simp [WF, autos]

/-! ## C16: from_fields -/

/-- The fields of a product, each assembled by the assembler of its own type. -/
def assembleEach2 : Fields → List Val → Except Err (List BV)
  | .cons _ t fs, v :: vs => do
    let o ← t.build2
    let b ← o.asm v
    let bs ← assembleEach2 fs vs
    return b :: bs
  | _, _ => .ok []

/-- All field widths. -/
def fieldWidths : Fields → List Nat
  | .nil => []
  | .cons _ t fs => width t :: fieldWidths fs

theorem fieldWidths_eq : ∀ fs : Fields, fieldWidths fs = fs.toList.map (fun p => width p.2)
  | .nil => rfl
  | .cons k t fs => by simp [fieldWidths, Fields.toList, fieldWidths_eq fs]

theorem assembleEach2_spec : ∀ (fs : Fields) (vs : List Val), WFs fs → fs.HasAll vs →
    ∃ bs, assembleEach2 fs vs = .ok bs ∧ bs.map (·.size) = fieldWidths fs ∧ concatVal bs = encodeAll fs vs
  | .nil, vs, _, hv => by
    cases vs <;> simp only [Fields.HasAll] at hv
    exact ⟨[], rfl, rfl, rfl⟩
  | .cons k t fs, vs, hw, hv => by
    cases vs with
    | nil => simp only [Fields.HasAll] at hv
    | cons v vs =>
      simp only [Fields.HasAll] at hv
      obtain ⟨o, ho, hg⟩ := build2_ok t hw.1
      obtain ⟨bs, h1, h2, h3⟩ := assembleEach2_spec fs vs hw.2 hv.2
      refine ⟨BV.ofNat (width t) (encode t v) :: bs, ?_, ?_, ?_⟩
      · have ha := hg.asm_ok v hv.1
        simp only [assembleEach2, ho, h1, bind, Except.bind, ha, pure, Except.pure]
      · simp [fieldWidths, h2]
      · simp only [concatVal, BV.ofNat_size, h3, encodeAll, ofNat_val_of_lt (encode_spec t hw.1 v hv.1).1]

theorem rows2_tiles : ∀ (fs : Fields) (l : List (Key × Ty × Asm2)) (base : Nat) (bs : List BV), Good2All fs l →
    bs.map (·.size) = fieldWidths fs →
    let parts := ((rows2 (strip2 l) base).map (fun r => (r.lo, r.hi))).zip bs
    Tiles base (base + sumWidths fs) (parts.map (·.1)) ∧ parts.map (·.2) = bs ∧ (∀ p ∈ parts, p.2.size = p.1.2 - p.1.1 ∧ p.1.1 ≤ p.1.2)
      ∧ parts.map (fun p => p.1.2 - p.1.1) = fieldWidths fs
  | .nil, l, base, bs, hg, hb => by
    cases l <;> simp only [Good2All] at hg
    cases bs with
    | nil => simp [strip2, rows2, Tiles, sumWidths, fieldWidths]
    | cons b bs => simp [fieldWidths] at hb
  | .cons k t fs, l, base, bs, hg, hb => by
    cases l with
    | nil => simp only [Good2All] at hg
    | cons p l =>
      obtain ⟨k', t', o⟩ := p
      simp only [Good2All] at hg
      obtain ⟨rfl, rfl, _, hg, hgs⟩ := hg
      cases bs with
      | nil => simp [fieldWidths] at hb
      | cons b bs =>
        simp only [List.map_cons, fieldWidths, List.cons.injEq] at hb
        obtain ⟨a1, a2, a3, a4⟩ := rows2_tiles fs l (base + width t') bs hgs hb.2
        simp only [strip2, List.map_cons, rows2, List.zip_cons_cons, Tiles, hg.width, sumWidths, ← Nat.add_assoc,
          List.cons.injEq, true_and, List.mem_cons, forall_eq_or_imp, fieldWidths] at a1 a2 a3 a4 ⊢
        exact ⟨⟨by omega, a1⟩, a2, ⟨by omega, a3⟩, by omega, a4⟩

/-- C16, products, partial: `from_fields` of the separately assembled fields is the assembly of the product, if there is one field
only or every field has positive width.
Missing: zero-width fields next to other fields, and the empty product, on which the property is false (`C16_zero_width_field`,
`C16_empty_product`). -/
theorem C16_from_fields_product_partial (c : Nat) (fs : Fields) (vs : List Val) (hw : WF (.prod c fs))
    (hv : (Ty.prod c fs).Has (.prod vs)) (hne : fs ≠ .nil)
    (hpos : (∀ w ∈ fs.toList.map (fun p => width p.2), 0 < w) ∨ fs.toList.length = 1) :
    ∃ o bs b, (Ty.prod c fs).build2 = .ok o ∧ assembleEach2 fs vs = .ok bs ∧ o.asm (.prod vs) = .ok b ∧
      o.fromFields bs = .ok b := by
  obtain ⟨l, h1, h2⟩ := build2All_ok fs hw.2
  have hg := tuple2_good hw h2
  have hwd := tuple2_width h2
  obtain ⟨bs, b1, b2, b3⟩ := assembleEach2_spec fs vs hw.2 hv
  refine ⟨tuple2 (strip2 l), bs, _, by rw [Ty.build2, h1]; rfl, b1, hg.asm_ok _ hv, ?_⟩
  obtain ⟨a1, a2, a3, a4⟩ := rows2_tiles fs l 0 bs h2 b2
  rw [Nat.zero_add] at a1
  have hlen : bs.length = (strip2 l).length := by
    have e1 := congrArg List.length b2
    rw [fieldWidths_eq, ← good2All_strip fs l h2] at e1
    simpa [strip2] using e1
  simp only [tuple2] at hwd ⊢
  rw [if_pos hlen, hwd, createFromLayout_tiles a1, a2, b3]
  · simp only [Spec.width, encode]
  · intro hnil
    rw [hnil] at a4
    cases fs with
    | nil => exact hne rfl
    | cons k t fs => simp [fieldWidths] at a4
  · rcases hpos with hpos | hpos
    · left
      intro p hp
      have := hpos (p.1.2 - p.1.1) (by
        rw [← fieldWidths_eq, ← a4]
        exact List.mem_map_of_mem (f := fun p => p.1.2 - p.1.1) hp)
      omega
    · right
      have := congrArg List.length a4
      rw [fieldWidths_eq] at this
      simpa [hpos] using this
  · intro p hp; exact (a3 p hp).1

example : WF (.prod 0 (.cons 0 (.bv 0 3) (.cons 1 (.bit 0) .nil))) ∧
    (Ty.prod 0 (.cons 0 (.bv 0 3) (.cons 1 (.bit 0) .nil))).Has (.prod [.bits (BV.ofNat 3 5), .bit true]) ∧
    ∀ w ∈ (Fields.cons 0 (.bv 0 3) (.cons 1 (.bit 0) .nil)).toList.map (fun p => width p.2), 0 < w :=
  ⟨by simp [WF, WFs, Fields.toList], by simp [Ty.Has, Fields.HasAll, BV.ofNat], by simp [Fields.toList, width]⟩

/-- C16 fails: with a zero-width field next to another field, `from_fields` raises ValueError, whatever the values. -/
theorem C16_zero_width_field (c : Nat) (fs : Fields) (bs : List BV) (hw : WF (.prod c fs)) (hlen : 2 ≤ fs.toList.length)
    (hb : bs.map (·.size) = fs.toList.map (fun p => width p.2)) (hz : 0 ∈ fs.toList.map (fun p => width p.2)) :
    ∃ o, (Ty.prod c fs).build2 = .ok o ∧ o.fromFields bs = .error .valueError := by
  obtain ⟨l, h1, h2⟩ := build2All_ok fs hw.2
  rw [← fieldWidths_eq] at hb
  refine ⟨tuple2 (strip2 l), by rw [Ty.build2, h1]; rfl, ?_⟩
  obtain ⟨a1, a2, a3, a4⟩ := rows2_tiles fs l 0 bs h2 hb
  have hlenb : bs.length = fs.toList.length := by
    have := congrArg List.length hb
    rw [fieldWidths_eq] at this
    simpa using this
  have hlens : (strip2 l).length = fs.toList.length := by
    rw [← good2All_strip fs l h2]; simp [strip2]
  have hlena := congrArg List.length a4
  rw [fieldWidths_eq, List.length_map, List.length_map] at hlena
  simp only [tuple2]
  rw [if_pos (by rw [hlenb, hlens])]
  apply createFromLayout_zero
  · rw [hlena]; exact hlen
  · rw [← fieldWidths_eq, ← a4] at hz
    obtain ⟨p, hp, hp'⟩ := List.mem_map.1 hz
    exact ⟨p, hp, by omega⟩

/-- C16 fails: the empty product assembles to the empty opcode, but `from_fields()` raises AssertionError. -/
theorem C16_empty_product (c : Nat) : ∃ o b, (Ty.prod c .nil).build2 = .ok o ∧ o.asm (.prod []) = .ok b ∧
    o.fromFields [] = .error .assertionError :=
  ⟨_, _, by rw [Ty.build2, Fields.build2], rfl, rfl⟩

/-- C16, unions, partial: `from_fields(k, payload)` of a separately assembled payload is the assembly of the union value, if there
are at least two options and the payload has positive width.
Missing: one-option unions and zero-width payloads, on which the property is false (`C16_zero_width_option`). -/
theorem C16_from_fields_union_partial (c : Nat) (fs : Fields) (k : Key) (t : Ty) (v : Val) (hw : WF (.sum c fs))
    (hk : (k, t) ∈ fs.toList) (hv : t.Has v) (h2 : 2 ≤ fs.toList.length) (hpos : 0 < width t) :
    ∃ o ot bt b, (Ty.sum c fs).build2 = .ok o ∧ t.build2 = .ok ot ∧ ot.asm v = .ok bt ∧ o.asm (.sum k v) = .ok b ∧
      o.fromOption k bt = .ok b := by
  obtain ⟨i, hi⟩ := List.getElem?_of_mem hk
  obtain ⟨l, hl, hgl⟩ := build2All_ok fs hw.2.2
  obtain ⟨h1, h2', h3, hnd⟩ := sum2_eq hw hgl
  obtain ⟨o, hsum, hg⟩ := sum2_ok hw hgl
  have hv' : (Ty.sum c fs).Has (.sum k v) := (hasAt_iff hw.2.1 k v).2 ⟨i, t, hi, hv⟩
  obtain ⟨ot, hot⟩ := (good2All_get fs l hgl i k t).1 hi
  obtain ⟨hbt, hgt⟩ := good2All_mem fs l hgl _ (List.mem_of_getElem? hot)
  simp only at hbt hgt
  have hidx := optionIndex_of_get hw.2.1 hi
  have hfit := lt_tagBits (List.getElem?_eq_some_iff.1 hi).1
  have hwt := wfs_mem fs hw.2.2 i k t hi
  have he := (encode_spec t hwt v hv).1
  have hle := width_le_maxWidth fs i k t hi
  have htb : 0 < tagBits fs.toList.length := by
    rcases Nat.eq_zero_or_pos (tagBits fs.toList.length) with h | h
    · have := lt_two_pow_bitLength (fs.toList.length - 1)
      unfold tagBits at h
      rw [h] at this; omega
    · exact h
  refine ⟨o, ot, _, _, by rw [Ty.build2, hl]; exact hsum, hbt, hgt.asm_ok v hv, hg.asm_ok _ hv', ?_⟩
  simp only [sum2, h1, if_neg h3, Except.ok.injEq] at hsum
  rw [← hsum]
  simp only [h2', optsFrom_key _ l 0 i k t ot hnd hot, hgt.width]
  rw [createFromLayout_union htb hpos (by omega) rfl rfl]
  simp only [encode, hidx, encodeAt_get fs k v t (by rw [hidx]; exact hi), Spec.width]
  congr 1
  rw [ofNat_val_of_lt he, ofNat_val_of_lt (by simpa using hfit)]
  simp

example : WF demoIsa ∧ 2 ≤ (Fields.cons 0 (.prod 11 (.cons 0 (.enum 12 [.lit 2, .auto 0, .auto 1]) (.cons 1 (.bv 13 5) .nil)))
    (.cons 1 (.bit 14) (.cons 2 (.bv 15 1) (.cons 3 (.bv 15 1) .nil)))).toList.length ∧ 0 < width (.bv 15 1) :=
  ⟨demoIsa_wf, by simp [Fields.toList], by simp [width]⟩

/-- C16 fails: `from_fields` on a union raises ValueError if there is one option only, or if the option has zero width. -/
theorem C16_zero_width_option (c : Nat) (fs : Fields) (k : Key) (t : Ty) (b : BV) (hw : WF (.sum c fs))
    (hk : (k, t) ∈ fs.toList) (hz : fs.toList.length = 1 ∨ width t = 0) :
    ∃ o, (Ty.sum c fs).build2 = .ok o ∧ o.fromOption k b = .error .valueError := by
  obtain ⟨i, hi⟩ := List.getElem?_of_mem hk
  obtain ⟨l, hl, hgl⟩ := build2All_ok fs hw.2.2
  obtain ⟨h1, h2', h3, hnd⟩ := sum2_eq hw hgl
  obtain ⟨o, hsum, hg⟩ := sum2_ok hw hgl
  obtain ⟨ot, hot⟩ := (good2All_get fs l hgl i k t).1 hi
  obtain ⟨hbt, hgt⟩ := good2All_mem fs l hgl _ (List.mem_of_getElem? hot)
  simp only at hbt hgt
  refine ⟨o, by rw [Ty.build2, hl]; exact hsum, ?_⟩
  simp only [sum2, h1, if_neg h3, Except.ok.injEq] at hsum
  rw [← hsum]
  simp only [h2', optsFrom_key _ l 0 i k t ot hnd hot, hgt.width]
  apply createFromLayout_zero (by simp)
  rcases hz with hz | hz
  · refine ⟨_, List.mem_cons_of_mem _ (List.mem_singleton.2 rfl), ?_⟩
    simp [hz, tagBits, bitLength]
  · exact ⟨_, List.mem_cons_self, by simp [hz]⟩

/-- The code violates C16 as stated: a zero-width field makes `from_fields` fail on fields that were assembled. -/
theorem C16_violated :
    ¬ ∀ (c : Nat) (fs : Fields) (vs : List Val), WF (.prod c fs) → (Ty.prod c fs).Has (.prod vs) →
      ∃ o bs b, (Ty.prod c fs).build2 = .ok o ∧ assembleEach2 fs vs = .ok bs ∧ o.asm (.prod vs) = .ok b ∧
        o.fromFields bs = .ok b := by
  intro h
  have hw : WF (.prod 0 (.cons 0 (.bv 0 3) (.cons 1 (.enum 1 [.lit 0]) .nil))) := by simp [WF, WFs, Fields.toList, autos]
  have hv : (Ty.prod 0 (.cons 0 (.bv 0 3) (.cons 1 (.enum 1 [.lit 0]) .nil))).Has (.prod [.bits (BV.ofNat 3 5), .enum (.lit 0)]) := by
    simp [Ty.Has, Fields.HasAll, BV.ofNat]
  obtain ⟨o, bs, b, h1, h2, h3, h4⟩ := h 0 _ _ hw hv
  obtain ⟨bs', e1, e2, _⟩ := assembleEach2_spec _ _ hw.2 hv
  rw [h2, Except.ok.injEq] at e1; subst e1
  obtain ⟨o', g1, g2⟩ := C16_zero_width_field 0 _ bs hw (by simp [Fields.toList]) (by rw [e2, fieldWidths_eq]) (by decide +kernel)
  rw [h1, Except.ok.injEq] at g1; subst g1
  rw [h4] at g2; simp at g2

end Peak
