import Verif.Props.AssembledADT
/-!
# C17 and C19 for assembled values made from arbitrary bits

An assembled value may hold bits that no unassembled value has; the fields are still there, and put together again they give the value.
-/

namespace Peak
open Peak.Spec

/-- Specification: `isinstance(x, AssembledADT[T, ...])`, where bits and bit vectors are not wrapped. -/
def AV.OfType : Ty → AV → Prop
  | .bit _, .bit _ => True
  | .bv _ w, .bits b => b.size = w
  | .enum c ms, .adt t b => t = .enum c ms ∧ b.size = width t
  | .prod c fs, .adt t b => t = .prod c fs ∧ b.size = width t
  | .sum c fs, .adt t b => t = .sum c fs ∧ b.size = width t
  | _, _ => False

theorem ofType_mkAV (t : Ty) (n : Nat) : (mkAV t n).OfType t := by
  cases t <;> simp [mkAV, AV.OfType]

theorem asBv_mkAV' (t : Ty) (n : Nat) : (mkAV t n).asBv = BV.ofNat (width t) n := by
  rw [← mkAV_mod, asBv_mkAV (Nat.mod_lt _ (Nat.two_pow_pos _))]
  exact BV.ext rfl (by simp)

/-- The fields of the product whose bits are `n`. -/
def fieldAVs : Fields → Nat → List AV
  | .nil, _ => []
  | .cons _ t fs, n => mkAV t n :: fieldAVs fs (n / 2 ^ width t)

theorem layout_field : ∀ (fs : Fields) (base n : Nat) (i : Nat) (k : Key) (t : Ty), (fs.toList.map (·.1)).Nodup → fs.toList[i]? = some (k, t) →
    ∃ off, (layoutFrom base fs).lookup k = some (off, off + width t) ∧ off + width t ≤ base + sumWidths fs ∧
      (fieldAVs fs (n / 2 ^ base))[i]? = some (mkAV t (n / 2 ^ off))
  | .nil, _, _, _, _, _, _, h => by simp [Fields.toList] at h
  | .cons k' t' fs, base, n, i, k, t, nd, h => by
    simp only [Fields.toList, List.map_cons, List.nodup_cons] at nd
    cases i with
    | zero =>
      simp only [Fields.toList, List.getElem?_cons_zero, Option.some.injEq, Prod.mk.injEq] at h
      obtain ⟨rfl, rfl⟩ := h
      exact ⟨base, by simp [layoutFrom], by simp only [sumWidths]; omega, by simp [fieldAVs]⟩
    | succ i =>
      simp only [Fields.toList, List.getElem?_cons_succ] at h
      obtain ⟨off, h1, h2, h3⟩ := layout_field fs (base + width t') n i k t nd.2 h
      refine ⟨off, ?_, by simp only [sumWidths]; omega, ?_⟩
      · have : (k == k') = false := by
          simp only [beq_eq_false_iff_ne, ne_eq]
          rintro rfl
          exact nd.1 (List.mem_map_of_mem (f := (·.1)) (List.mem_of_getElem? h))
        simp only [layoutFrom, List.lookup_cons, this]
        exact h1
      · simp only [fieldAVs, List.getElem?_cons_succ, Nat.div_div_eq_div_mul, ← Nat.pow_add]
        exact h3

theorem prod_get (P : Process) {c : Nat} {fs : Fields} {b : BV} (hw : WF (.prod c fs)) (hb : b.size = width (.prod c fs)) {i : Nat} {k : Key} {t : Ty}
    (hi : fs.toList[i]? = some (k, t)) :
    ∃ off, (layoutOf (.prod c fs)).lookup k = some (off, off + width t) ∧ off + width t ≤ width (.prod c fs) ∧
      (AV.adt (.prod c fs) b).get P.asm k = .ok (mkAV t (b.val / 2 ^ off)) ∧ (fieldAVs fs b.val)[i]? = some (mkAV t (b.val / 2 ^ off)) := by
  obtain ⟨off, h1, h2, h3⟩ := layout_field fs 0 b.val i k t hw.1 hi
  obtain ⟨o, ho, hg⟩ := P.good hw
  rw [Nat.zero_add] at h2
  refine ⟨off, h1, h2, ?_, by simpa using h3⟩
  simp only [AV.get, ho]
  exact sub_spec P hg (wfs_mem fs hw.2 i k t hi) hb (lookup_of_get hw.1 hi) h1 h2

/-- C17 for products made from any bits of the right width: every field can be read, has the class of the field, and its bits are those in the field's range. -/
theorem C17_field_bits (P : Process) (c : Nat) (fs : Fields) (b : BV) (hw : WF (.prod c fs)) (hb : b.size = width (.prod c fs)) :
    ∃ o x, P.asm (.prod c fs) = .ok o ∧ AV.new P.asm (.prod c fs) (.asm (.bits b)) = .ok x ∧
      ∀ k t, (k, t) ∈ fs.toList → ∃ g lo hi, x.get P.asm k = .ok g ∧ g.OfType t ∧ o.layout.lookup k = some (lo, hi) ∧ g.asBv = b.slice lo hi := by
  obtain ⟨o, ho, hg⟩ := P.good hw
  have hx : AV.new P.asm (.prod c fs) (.asm (.bits b)) = .ok (.adt (.prod c fs) b) := by
    simp only [AV.new, ho, AV.init, hg.width, if_pos hb]
  refine ⟨o, _, ho, hx, fun k t hk => ?_⟩
  obtain ⟨i, hi⟩ := List.getElem?_of_mem hk
  obtain ⟨off, h1, h2, h3, _⟩ := prod_get P hw hb hi
  refine ⟨_, off, off + width t, h3, ofType_mkAV t _, by rw [hg.layout]; exact h1, ?_⟩
  rw [asBv_mkAV']
  obtain ⟨f1, f2⟩ := slice_field (b := b) (base := off) (w := width t) (by omega)
  exact BV.ext f1.symm (by rw [f2]; rfl)

theorem newFields_AVs (P : Process) : ∀ (fs : Fields) (n : Nat), WFs fs →
    AV.newFields P.asm fs ((fieldAVs fs n).map .asm) = .ok ((fieldAVs fs n).map AV.asBv) ∧
    ((fieldAVs fs n).map AV.asBv).map (·.size) = fieldWidths fs ∧ concatVal ((fieldAVs fs n).map AV.asBv) = n % 2 ^ sumWidths fs
  | .nil, n, _ => ⟨rfl, rfl, by simp [fieldAVs, concatVal, sumWidths, Nat.mod_one]⟩
  | .cons k t fs, n, hw => by
    obtain ⟨h1, h2, h3⟩ := newFields_AVs P fs (n / 2 ^ width t) hw.2
    refine ⟨?_, ?_, ?_⟩
    · simp only [fieldAVs, List.map_cons, AV.newFields, new_asm P hw.1, h1]
    · simp only [fieldAVs, List.map_cons, asBv_mkAV', BV.ofNat_size, fieldWidths, h2]
    · simp only [fieldAVs, List.map_cons, concatVal, asBv_mkAV', BV.ofNat_size, h3, sumWidths, BV.ofNat_val]
      rw [Nat.pow_add, Nat.mod_mul]

theorem fieldAVs_length : ∀ (fs : Fields) (n : Nat), (fieldAVs fs n).length = fs.toList.length
  | .nil, _ => rfl
  | .cons k t fs, n => by simp [fieldAVs, Fields.toList, fieldAVs_length fs]

/-- C19: the fields read from a product, whatever its bits, give back the product.
Missing: as in `C19_from_fields_product_partial`. -/
theorem C19_rebuild_partial (P : Process) (c : Nat) (fs : Fields) (b : BV) (gs : List AV) (dflt : Nat) (hw : WF (.prod c fs)) (hb : b.size = width (.prod c fs))
    (hl : gs.length = fs.toList.length) (hgs : ∀ (i : Nat) k t g, fs.toList[i]? = some (k, t) → gs[i]? = some g → (AV.adt (.prod c fs) b).get P.asm k = .ok g)
    (hne : fs ≠ .nil) (hpos : (∀ w ∈ fs.toList.map (fun p => width p.2), 0 < w) ∨ fs.toList.length = 1) :
    AV.fromFields P.asm (.prod c fs) (gs.map .asm) dflt = .ok (.adt (.prod c fs) b) := by
  have e : gs = fieldAVs fs b.val := by
    apply List.ext_getElem?
    intro i
    by_cases hi : i < fs.toList.length
    · obtain ⟨off, _, _, h3, h4⟩ := prod_get P hw hb (List.getElem?_eq_getElem hi)
      have := hgs i _ _ gs[i] (List.getElem?_eq_getElem hi) (List.getElem?_eq_getElem (by omega))
      rw [h3, Except.ok.injEq] at this
      rw [h4, this, List.getElem?_eq_getElem (by omega)]
    · rw [List.getElem?_eq_none (by omega), List.getElem?_eq_none (by rw [fieldAVs_length]; omega)]
  subst e
  obtain ⟨o, ho, hg⟩ := P.good hw
  obtain ⟨b1, b2, b3⟩ := newFields_AVs P fs b.val hw.2
  obtain ⟨a1, a2, a3, a4⟩ := layoutFrom_parts fs 0 _ b2
  rw [Nat.zero_add] at a1
  simp only [AV.fromFields, ho, b1, AV.fromParts, hg.width, hg.layout, layoutOf, width]
  rw [createFromLayout_tiles a1, a2, b3]
  · simp only [AV.init, BV.ofNat_size, if_true]
    congr 2
    refine BV.ext hb.symm ?_
    have := b.isLt
    rw [hb] at this
    simp only [width] at this
    rw [BV.ofNat_val, Nat.mod_mod, Nat.mod_eq_of_lt this]
  · intro hnil
    rw [hnil] at a4
    cases fs with
    | nil => exact hne rfl
    | cons k t fs => simp [fieldWidths] at a4
  · rcases hpos with hpos | hpos
    · left
      intro p hp
      have := hpos (p.1.2 - p.1.1) (by
        rw [← fieldWidths_eq, ← a4]
        exact List.mem_map_of_mem (f := fun p => p.1.2 - p.1.1) hp)
      omega
    · right
      have := congrArg List.length a4
      rw [fieldWidths_eq] at this
      simpa [hpos] using this
  · intro p hp; exact (a3 p hp).1

/-- C17 for unions made from any bits of the right width: every option can be read, with a value of the option's class; at most one matches, and one does exactly when the tag is below the number of options. -/
theorem C17_option_bits (P : Process) (c : Nat) (fs : Fields) (b : BV) (hw : WF (.sum c fs)) (hb : b.size = width (.sum c fs)) :
    ∃ o tg x, P.asm (.sum c fs) = .ok o ∧ o.tag = some tg ∧ AV.new P.asm (.sum c fs) (.asm (.bits b)) = .ok x ∧
      (∀ k t, (k, t) ∈ fs.toList → ∃ m g, x.getOption P.asm k = .ok (m, g) ∧ g.OfType t) ∧
      (∀ k k' g g', x.getOption P.asm k = .ok (true, g) → x.getOption P.asm k' = .ok (true, g') → k = k') ∧
      ((∃ k g, x.getOption P.asm k = .ok (true, g)) ↔ (b.slice 0 tg.width).val < fs.toList.length) := by
  obtain ⟨o, ho, hg⟩ := P.good hw
  obtain ⟨tg, ht, hgt⟩ := hg.tag
  have hx : AV.new P.asm (.sum c fs) (.asm (.bits b)) = .ok (.adt (.sum c fs) b) := by
    simp only [AV.new, ho, AV.init, hg.width, if_pos hb]
  obtain ⟨s1, s2⟩ := slice_field (b := b) (base := 0) (w := tagBits fs.toList.length) (by rw [hb]; simp only [width]; omega)
  rw [Nat.zero_add] at s1 s2
  have key : ∀ (j : Nat) (k : Key) (t : Ty), fs.toList[j]? = some (k, t) →
      (AV.adt (.sum c fs) b).getOption P.asm k = .ok (decide ((b.slice 0 (tagBits fs.toList.length)).val = j), mkAV t (b.val / 2 ^ tagBits fs.toList.length)) := by
    intro j k t hj
    have hlej := width_le_maxWidth fs j k t hj
    have hs := sub_spec P hg (wfs_mem fs hw.2.2 j k t hj) (b := b)
      (k := k) (off := tagBits fs.toList.length) hb (lookup_of_get hw.2.1 hj) (sum_layout hw hj) (by simp only [width]; omega)
    have hkj : k ∈ fs.toList.map (·.1) := List.mem_map_of_mem (f := (·.1)) (List.mem_of_getElem? hj)
    have hfj := lt_tagBits (List.getElem?_eq_some_iff.1 hj).1
    simp only [AV.getOption, ho, hs, SubObj.tagIdx, AsmObj.sub, ht, AsmObj.assembleTag, hgt.asm_ok k hkj, hgt.width, Nat.zero_add,
      optionIndex_of_get hw.2.1 hj]
    congr 2
    rw [decide_eq_decide]
    constructor
    · intro h
      rw [h, ofNat_val_of_lt hfj]
    · intro h
      exact BV.ext s1 (by rw [h, ofNat_val_of_lt hfj])
  have none_of : ∀ k m g, (AV.adt (.sum c fs) b).getOption P.asm k = .ok (m, g) → ∃ (j : Nat) (t : Ty), fs.toList[j]? = some (k, t) := by
    intro k m g h
    simp only [AV.getOption, ho] at h
    cases hl : fs.toList.lookup k with
    | none =>
      have : AV.sub P.asm o (.sum c fs) b k = .error .keyError := by simp only [AV.sub, Ty.fieldDict, hl]
      rw [this] at h
      simp at h
    | some t =>
      have hmem : ∀ l : List (Key × Ty), l.lookup k = some t → (k, t) ∈ l := by
        intro l
        induction l with
        | nil => intro h; simp at h
        | cons p l ih =>
          intro h
          rw [List.lookup_cons] at h
          cases e : k == p.1 with
          | true =>
            rw [e] at h
            simp only [Option.some.injEq] at h
            have := beq_iff_eq.mp e
            rw [← h, this]
            simp
          | false =>
            rw [e] at h
            exact List.mem_cons_of_mem _ (ih h)
      obtain ⟨j, hj⟩ := List.getElem?_of_mem (hmem _ hl)
      exact ⟨j, t, hj⟩
  refine ⟨o, tg, _, ho, ht, hx, fun k t hk => ?_, fun k k' g g' h h' => ?_, ?_⟩
  · obtain ⟨j, hj⟩ := List.getElem?_of_mem hk
    exact ⟨_, _, key j k t hj, ofType_mkAV t _⟩
  · obtain ⟨j, t, hj⟩ := none_of k _ _ h
    obtain ⟨j', t', hj'⟩ := none_of k' _ _ h'
    rw [key j k t hj] at h
    rw [key j' k' t' hj'] at h'
    simp only [Except.ok.injEq, Prod.mk.injEq, decide_eq_true_eq] at h h'
    have : j = j' := h.1.symm.trans h'.1
    subst this
    rw [hj] at hj'
    simp only [Option.some.injEq, Prod.mk.injEq] at hj'
    exact hj'.1
  · rw [hgt.width]
    constructor
    · rintro ⟨k, g, h⟩
      obtain ⟨j, t, hj⟩ := none_of k _ _ h
      rw [key j k t hj] at h
      simp only [Except.ok.injEq, Prod.mk.injEq, decide_eq_true_eq] at h
      rw [h.1]
      exact (List.getElem?_eq_some_iff.1 hj).1
    · intro h
      obtain ⟨⟨k, t⟩, hj⟩ : ∃ p, fs.toList[(b.slice 0 (tagBits fs.toList.length)).val]? = some p := ⟨_, List.getElem?_eq_getElem h⟩
      exact ⟨k, _, by rw [key _ k t hj, decide_eq_true rfl]⟩

/-- A union of three options with a tag of two bits: the tag 3 belongs to no option. -/
example : WF demoIsa2 ∧ ∃ b : BV, b.size = width demoIsa2 ∧ (b.slice 0 2).val = 3 :=
  ⟨demoIsa2_wf, BV.ofNat (width demoIsa2) 3, rfl, by decide +kernel⟩

/-- A product with an enum of three members: its bits may be ones no member has. -/
example : WF (.prod 11 (.cons 0 (.enum 12 [.lit 2, .auto 0, .auto 1]) (.cons 1 (.bv 13 5) .nil))) ∧
    (BV.ofNat 7 3).size = width (.prod 11 (.cons 0 (.enum 12 [.lit 2, .auto 0, .auto 1]) (.cons 1 (.bv 13 5) .nil))) :=
  ⟨by simp [WF, WFs, Fields.toList, autos], by decide +kernel⟩

end Peak
