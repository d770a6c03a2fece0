import Verif.Model.AssembledADT
import Verif.Props.Assembler2
/-!
# C17 – C19: `AssembledADT`

A process is described by the history of constructions that preceded the first construction of each type's assembler; the
theorems hold for all of them.
-/

namespace Peak
open Peak.Spec

/-- For each type, which assemblers had been constructed before its own. -/
structure Process where
  hist : Ty → List Ty

/-- The assembler of each type in the process. -/
def Process.asm (P : Process) (t : Ty) : Except Err AsmObj := assemblerAfter (P.hist t) t

theorem Process.good (P : Process) {t : Ty} (hw : WF t) : ∃ o, P.asm t = .ok o ∧ Good False False t o := by
  obtain ⟨o, ho⟩ := assemblerAfter_ok (P.hist t) t hw
  exact ⟨o, ho, build_any _ t hw (build_of_after ho)⟩

mutual
theorem isinst_iff : ∀ (t : Ty) (v : Val), t.isinst v = true ↔ t.Has v
  | .bv _ w, v => by cases v <;> simp [Ty.isinst, Ty.Has]
  | .bit _, v => by cases v <;> simp [Ty.isinst, Ty.Has]
  | .enum _ ms, v => by cases v <;> simp [Ty.isinst, Ty.Has]
  | .prod _ fs, v => by cases v <;> simp [Ty.isinst, Ty.Has, isinstAll_iff fs]
  | .sum _ fs, v => by cases v <;> simp [Ty.isinst, Ty.Has, isinstAt_iff fs]
theorem isinstAll_iff : ∀ (fs : Fields) (vs : List Val), fs.isinstAll vs = true ↔ fs.HasAll vs
  | .nil, vs => by cases vs <;> simp [Fields.isinstAll, Fields.HasAll]
  | .cons k t fs, vs => by cases vs <;> simp [Fields.isinstAll, Fields.HasAll, isinst_iff t, isinstAll_iff fs]
theorem isinstAt_iff : ∀ (fs : Fields) (k : Key) (v : Val), fs.isinstAt k v = true ↔ fs.HasAt k v
  | .nil, k, v => by simp [Fields.isinstAt, Fields.HasAt]
  | .cons k' t fs, k, v => by simp [Fields.isinstAt, Fields.HasAt, isinst_iff t, isinstAt_iff fs]
end

/-- The assembled value with the given encoding. -/
def mkAV : Ty → Nat → AV
  | .bit _, n => .bit (n.testBit 0)
  | .bv _ w, n => .bits (BV.ofNat w n)
  | t, n => .adt t (BV.ofNat (width t) n)

theorem init_raw {t : Ty} {w : Nat} {f : Val → Except Err BV} {v : Val} {b : BV} (hv : t.Has v) (hf : f v = .ok b)
    (hnb : ∀ c w, t ≠ .bv c w) : AV.init w f t (.raw v) = .ok (.adt t b) := by
  have hi := (isinst_iff t v).2 hv
  cases v with
  | bits x => cases t <;> simp only [Ty.Has] at hv; exact absurd rfl (hnb _ _)
  | _ => simp only [AV.init, hi, if_true, hf]

theorem bit_enc {c : Nat} {v : Val} (hv : (Ty.bit c).Has v) : v = .bit ((encode (.bit c) v).testBit 0) := by
  cases v <;> simp only [Ty.Has] at hv
  next b => cases b <;> simp [encode]

theorem bits_enc {c w : Nat} {v : Val} (hv : (Ty.bv c w).Has v) : v = .bits (BV.ofNat w (encode (.bv c w) v)) := by
  cases v <;> simp only [Ty.Has] at hv
  next b =>
    simp only [encode]
    congr 1
    subst hv
    exact BV.ext rfl (Nat.mod_eq_of_lt b.isLt).symm

theorem new_raw (P : Process) {t : Ty} (hw : WF t) {v : Val} (hv : t.Has v) :
    AV.new P.asm t (.raw v) = .ok (mkAV t (encode t v)) := by
  cases t with
  | bit c =>
    cases v <;> simp only [Ty.Has] at hv
    next b => cases b <;> simp [AV.new, AV.plain, mkAV, encode]
  | bv c w =>
    cases v <;> simp only [Ty.Has] at hv
    simp [AV.new, AV.plain, mkAV, encode]
  | enum c ms =>
    obtain ⟨o, ho, hg⟩ := P.good hw
    simp only [AV.new, ho, mkAV]
    exact init_raw hv (hg.assemble hw hv) (by simp)
  | sum c fs =>
    obtain ⟨o, ho, hg⟩ := P.good hw
    simp only [AV.new, ho, mkAV]
    exact init_raw hv (hg.assemble hw hv) (by simp)
  | prod c fs =>
    obtain ⟨o, ho, hg⟩ := P.good hw
    simp only [AV.new, ho, mkAV]
    rw [init_raw hv (hg.assemble hw hv) (by simp)]

theorem new_bits (P : Process) {t : Ty} (hw : WF t) (hnb : ∀ c, t ≠ .bit c) {b : BV} (hb : b.size = width t) :
    AV.new P.asm t (.asm (.bits b)) = .ok (mkAV t b.val) := by
  have hbb : b = BV.ofNat (width t) b.val :=
    BV.ext hb (by rw [BV.ofNat_val, ← hb, Nat.mod_eq_of_lt b.isLt])
  cases t with
  | bit c => exact absurd rfl (hnb c)
  | bv c w => simp [AV.new, AV.plain, mkAV]
  | enum c ms =>
    obtain ⟨o, ho, hg⟩ := P.good hw
    simp only [AV.new, ho, mkAV, AV.init, hg.width, if_pos hb, ← hbb]
  | sum c fs =>
    obtain ⟨o, ho, hg⟩ := P.good hw
    simp only [AV.new, ho, mkAV, AV.init, hg.width, if_pos hb, ← hbb]
  | prod c fs =>
    obtain ⟨o, ho, hg⟩ := P.good hw
    simp only [AV.new, ho, mkAV, AV.init, hg.width, if_pos hb, ← hbb]

/-- Constructing from an already assembled value of the same type is the identity. -/
theorem new_asm (P : Process) {t : Ty} (hw : WF t) (n : Nat) : AV.new P.asm t (.asm (mkAV t n)) = .ok (mkAV t n) := by
  cases t with
  | bit c => simp [AV.new, AV.plain, mkAV]
  | bv c w => simp [AV.new, AV.plain, mkAV, BV.ofNat]
  | enum c ms =>
    obtain ⟨o, ho, hg⟩ := P.good hw
    simp only [AV.new, ho, mkAV, AV.init, if_true]
  | sum c fs =>
    obtain ⟨o, ho, hg⟩ := P.good hw
    simp only [AV.new, ho, mkAV, AV.init, if_true]
  | prod c fs =>
    obtain ⟨o, ho, hg⟩ := P.good hw
    simp only [AV.new, ho, mkAV, AV.init, if_true]

theorem mkAV_mod (t : Ty) (n : Nat) : mkAV t (n % 2 ^ width t) = mkAV t n := by
  cases t <;> simp [mkAV, width, Nat.testBit_zero, BV.ofNat]

/-- Reading a field out of an encoding. -/
theorem sub_spec (P : Process) {t tf : Ty} {o : AsmObj} (hg : Good False False t o) (hwf : WF tf) {b : BV} {k : Key} {off : Nat}
    (hb : b.size = width t) (hk : t.fieldDict.lookup k = some tf) (hl : (layoutOf t).lookup k = some (off, off + width tf))
    (hle : off + width tf ≤ width t) : AV.sub P.asm o t b k = .ok (mkAV tf (b.val / 2 ^ off)) := by
  obtain ⟨f, hf, hgf⟩ := P.good hwf
  simp only [AV.sub, hk, hf, hg.layout, hl, hgf.width]
  obtain ⟨f1, f2⟩ := slice_field (b := b) (base := off) (w := width tf) (by omega)
  cases tf with
  | bit c =>
    simp only [width] at f1 f2 ⊢
    simp only [BV.getBit, f1, Nat.zero_lt_one, if_true, f2, mkAV]
    simp [Nat.testBit_zero]
  | _ =>
    simp only
    rw [new_bits P hwf (by simp) f1, f2, mkAV_mod]

/-! ## C17: field access -/

/-- C17, products: the field `k` of an assembled product is the assembled field. -/
theorem C17_field (P : Process) (c : Nat) (fs : Fields) (vs : List Val) (k : Key) (tf : Ty) (v : Val)
    (hw : WF (.prod c fs)) (hv : (Ty.prod c fs).Has (.prod vs)) (hk : fieldOf fs vs k = some (tf, v)) :
    ∃ x f, AV.new P.asm (.prod c fs) (.raw (.prod vs)) = .ok x ∧ AV.new P.asm tf (.raw v) = .ok f ∧
      x.get P.asm k = .ok f := by
  obtain ⟨h1, h2, h3, off, h4, h5, h6⟩ := step_encode hw hv (k := k) (t' := tf) (v' := v) (by simpa [stepInto] using hk)
  refine ⟨_, _, new_raw P hw hv, new_raw P h2 h3, ?_⟩
  obtain ⟨o, ho, hg⟩ := P.good hw
  rw [show mkAV (.prod c fs) (encode (.prod c fs) (.prod vs)) =
    .adt (.prod c fs) (BV.ofNat (width (.prod c fs)) (encode (.prod c fs) (.prod vs))) from rfl]
  simp only [AV.get, ho]
  rw [sub_spec P hg h2 rfl h1 h4 h5, ofNat_val_of_lt (encode_spec _ hw _ hv).1, ← mkAV_mod, h6]

example : WF (.prod 11 (.cons 0 (.enum 12 [.lit 2, .auto 0, .auto 1]) (.cons 1 (.bv 13 5) .nil))) ∧
    (Ty.prod 11 (.cons 0 (.enum 12 [.lit 2, .auto 0, .auto 1]) (.cons 1 (.bv 13 5) .nil))).Has
      (.prod [.enum (.auto 1), .bits (BV.ofNat 5 19)]) ∧
    fieldOf (.cons 0 (.enum 12 [.lit 2, .auto 0, .auto 1]) (.cons 1 (.bv 13 5) .nil))
      [.enum (.auto 1), .bits (BV.ofNat 5 19)] 0 = some (.enum 12 [.lit 2, .auto 0, .auto 1], .enum (.auto 1)) :=
  ⟨by simp [WF, WFs, Fields.toList, autos], by simp [Ty.Has, Fields.HasAll, BV.ofNat], by simp [fieldOf]⟩

theorem lookup_of_get {fs : Fields} (hn : (fs.toList.map (·.1)).Nodup) {i : Nat} {k : Key} {t : Ty}
    (hi : fs.toList[i]? = some (k, t)) : fs.toList.lookup k = some t := by
  revert hn hi
  generalize fs.toList = l
  induction l generalizing i with
  | nil => intro _ h; simp at h
  | cons p l ih =>
    obtain ⟨k', t'⟩ := p
    intro hn hi
    cases i with
    | zero =>
      simp only [List.getElem?_cons_zero, Option.some.injEq, Prod.mk.injEq] at hi
      obtain ⟨rfl, rfl⟩ := hi
      simp
    | succ i =>
      simp only [List.getElem?_cons_succ] at hi
      simp only [List.map_cons, List.nodup_cons] at hn
      have hne : (k == k') = false := by
        rw [beq_eq_false_iff_ne]
        rintro rfl
        exact hn.1 (List.mem_map_of_mem (f := (·.1)) (List.mem_of_getElem? hi))
      rw [List.lookup_cons, hne]
      exact ih hn.2 hi

theorem sum_layout {c : Nat} {fs : Fields} (hw : WF (.sum c fs)) {i : Nat} {k : Key} {t : Ty}
    (hi : fs.toList[i]? = some (k, t)) :
    (layoutOf (.sum c fs)).lookup k = some (tagBits fs.toList.length, tagBits fs.toList.length + width t) := by
  have := lookup_map_snd (fun p : Key × Ty => (tagBits fs.toList.length, tagBits fs.toList.length + width p.2))
    (fun t => (tagBits fs.toList.length, tagBits fs.toList.length + width t)) (fun _ => rfl) fs.toList k
  simp only [layoutOf]
  rw [this, lookup_of_get hw.2.1 hi]; rfl

/-- C17, unions: on an assembled union value holding option `k`, accessing option `k'` matches exactly if `k' = k`, and accessing `k`
gives the assembled payload. -/
theorem C17_option (P : Process) (c : Nat) (fs : Fields) (k : Key) (t : Ty) (v : Val)
    (hw : WF (.sum c fs)) (hk : (k, t) ∈ fs.toList) (hv : t.Has v) :
    ∃ x f, AV.new P.asm (.sum c fs) (.raw (.sum k v)) = .ok x ∧ AV.new P.asm t (.raw v) = .ok f ∧
      x.getOption P.asm k = .ok (true, f) ∧
      ∀ k' t', (k', t') ∈ fs.toList → ∃ f', x.getOption P.asm k' = .ok (decide (k' = k), f') := by
  obtain ⟨i, hi⟩ := List.getElem?_of_mem hk
  have hv' : (Ty.sum c fs).Has (.sum k v) := (hasAt_iff hw.2.1 k v).2 ⟨i, t, hi, hv⟩
  have hwt := wfs_mem fs hw.2.2 i k t hi
  have hidx := optionIndex_of_get hw.2.1 hi
  have hfit := lt_tagBits (List.getElem?_eq_some_iff.1 hi).1
  have hlt := (encode_spec _ hw _ hv').1
  have henc : encode (.sum c fs) (.sum k v) = i + 2 ^ tagBits fs.toList.length * encode t v := by
    simp only [encode, hidx, encodeAt_get fs k v t (by rw [hidx]; exact hi)]
  obtain ⟨o, ho, hg⟩ := P.good hw
  obtain ⟨tg, ht, hgt⟩ := hg.tag
  have key : ∀ (j : Nat) (k' : Key) (t' : Ty), fs.toList[j]? = some (k', t') →
      (mkAV (.sum c fs) (encode (.sum c fs) (.sum k v))).getOption P.asm k' =
        .ok (decide (k' = k), mkAV t' (encode t v)) := by
    intro j k' t' hj
    have hlej := width_le_maxWidth fs j k' t' hj
    have hs := sub_spec P hg (wfs_mem fs hw.2.2 j k' t' hj) (b := BV.ofNat (width (.sum c fs)) (encode (.sum c fs) (.sum k v)))
      (k := k') (off := tagBits fs.toList.length) rfl (lookup_of_get hw.2.1 hj) (sum_layout hw hj)
      (by simp only [width]; omega)
    have hkj : k' ∈ fs.toList.map (·.1) := List.mem_map_of_mem (f := (·.1)) (List.mem_of_getElem? hj)
    have htag := tag_slice (w := width (.sum c fs)) hfit (by simp only [width]; omega)
      (BV.ofNat (width (.sum c fs)) (encode (.sum c fs) (.sum k v))) rfl (by rw [ofNat_val_of_lt hlt, henc])
    simp only [mkAV, AV.getOption, ho, hs, SubObj.tagIdx, AsmObj.sub, ht, AsmObj.assembleTag,
      hgt.asm_ok k' hkj, hgt.width, Nat.zero_add, htag, optionIndex_of_get hw.2.1 hj]
    rw [ofNat_val_of_lt hlt, henc, Nat.add_mul_div_left _ _ (Nat.two_pow_pos _), Nat.div_eq_of_lt hfit, Nat.zero_add]
    have hfj := lt_tagBits (List.getElem?_eq_some_iff.1 hj).1
    congr 2
    rw [decide_eq_decide]
    constructor
    · intro h
      have := congrArg BV.val h
      rw [ofNat_val_of_lt hfit, ofNat_val_of_lt hfj] at this
      subst this
      rw [hi] at hj
      simp only [Option.some.injEq, Prod.mk.injEq] at hj
      exact hj.1.symm
    · rintro rfl
      rw [← hidx, optionIndex_of_get hw.2.1 hj]
  refine ⟨_, _, new_raw P hw hv', new_raw P hwt hv, ?_, ?_⟩
  · rw [key i k t hi]; simp
  · intro k' t' hk'
    obtain ⟨j, hj⟩ := List.getElem?_of_mem hk'
    exact ⟨_, key j k' t' hj⟩

example : WF demoIsa ∧ (3, Ty.bv 15 1) ∈ (Fields.cons 0 (.prod 11 (.cons 0 (.enum 12 [.lit 2, .auto 0, .auto 1]) (.cons 1 (.bv 13 5) .nil)))
    (.cons 1 (.bit 14) (.cons 2 (.bv 15 1) (.cons 3 (.bv 15 1) .nil)))).toList ∧ (Ty.bv 15 1).Has (.bits (BV.ofNat 1 1)) :=
  ⟨demoIsa_wf, by simp [Fields.toList], by simp [Ty.Has, BV.ofNat]⟩

/-! ### the same for assembler2 -/

theorem new2_raw {t : Ty} (hw : WF t) {v : Val} (hv : t.Has v) : AV.new2 t (.raw v) = .ok (mkAV t (encode t v)) := by
  cases t with
  | bit c =>
    cases v <;> simp only [Ty.Has] at hv
    next b => cases b <;> simp [AV.new2, AV.plain, mkAV, encode]
  | bv c w =>
    cases v <;> simp only [Ty.Has] at hv
    simp [AV.new2, AV.plain, mkAV, encode]
  | _ =>
    obtain ⟨o, ho, hg⟩ := build2_ok _ hw
    simp only [AV.new2, ho, mkAV]
    exact init_raw hv (hg.asm_ok _ hv) (by simp)

theorem new2_bits {t : Ty} (hw : WF t) (hnb : ∀ c, t ≠ .bit c) {b : BV} (hb : b.size = width t) :
    AV.new2 t (.asm (.bits b)) = .ok (mkAV t b.val) := by
  have hbb : b = BV.ofNat (width t) b.val :=
    BV.ext hb (by rw [BV.ofNat_val, ← hb, Nat.mod_eq_of_lt b.isLt])
  cases t with
  | bit c => exact absurd rfl (hnb c)
  | bv c w => simp [AV.new2, AV.plain, mkAV]
  | _ =>
    obtain ⟨o, ho, hg⟩ := build2_ok _ hw
    simp only [AV.new2, ho, mkAV, AV.init, hg.width, if_pos hb, ← hbb]

theorem sub2_of_extract {o : Asm2} {t tf : Ty} {b : BV} {k : Key} {n : Nat} (hw : WF tf)
    (he : o.extract b (.name k) = .ok (BV.ofNat (width tf) n)) (hk : t.fieldDict.lookup k = some tf) :
    AV.sub2 o t b k = .ok (mkAV tf n) := by
  simp only [AV.sub2, he, hk]
  cases tf with
  | bit c => simp [width, BV.getBit, mkAV]
  | _ =>
    simp only
    rw [new2_bits hw (by simp) rfl, BV.ofNat_val, mkAV_mod]

/-- C17 for assembler2's `AssembledADT`, products. -/
theorem C17_field2 (c : Nat) (fs : Fields) (vs : List Val) (i : Nat) (k : Key) (tf : Ty) (v : Val)
    (hw : WF (.prod c fs)) (hv : (Ty.prod c fs).Has (.prod vs)) (hi : fs.toList[i]? = some (k, tf)) (hvi : vs[i]? = some v) :
    ∃ x f, AV.new2 (.prod c fs) (.raw (.prod vs)) = .ok x ∧ AV.new2 tf (.raw v) = .ok f ∧ x.get2 k = .ok f := by
  obtain ⟨o, b, ot, bt, h1, h2, h3, h4, h5, _⟩ := C15_extract_field c fs vs i k tf v hw hv hi hvi
  have hwt := wfs_mem fs hw.2 i k tf hi
  obtain ⟨o', e1, hg⟩ := build2_ok _ hw
  rw [h1, Except.ok.injEq] at e1; subst e1
  obtain ⟨ot', e1, hgt⟩ := build2_ok _ hwt
  rw [h3, Except.ok.injEq] at e1; subst e1
  obtain ⟨l, _, h2'⟩ := build2All_ok fs hw.2
  obtain ⟨hvt, _⟩ := rows2_get fs l vs 0 i k tf v h2' hw.2 hv hi hvi
  refine ⟨_, _, new2_raw hw hv, new2_raw hwt hvt, ?_⟩
  rw [hg.asm_ok _ hv, Except.ok.injEq] at h2
  rw [hgt.asm_ok _ hvt, Except.ok.injEq] at h4
  simp only [mkAV, AV.get2, h1]
  apply sub2_of_extract hwt
  · rw [h2, h5, h4]
  · exact lookup_of_get hw.1 hi

/-- Taking any option of a union value yields as many bits as that option has. -/
theorem sum2_extract_any {c : Nat} {fs : Fields} (hw : WF (.sum c fs)) {o : Asm2} (ho : (Ty.sum c fs).build2 = .ok o) (b : BV)
    (hb : b.size = width (.sum c fs)) {k : Key} {t : Ty} (hk : (k, t) ∈ fs.toList) :
    ∃ n, o.extract b (.name k) = .ok (BV.ofNat (width t) n) := by
  obtain ⟨i, hi⟩ := List.getElem?_of_mem hk
  obtain ⟨l, hl, hgl⟩ := build2All_ok fs hw.2.2
  obtain ⟨h1, h2, h3, hnd⟩ := sum2_eq hw hgl
  obtain ⟨ot, hot⟩ := (good2All_get fs l hgl i k t).1 hi
  obtain ⟨_, hgt⟩ := good2All_mem fs l hgl _ (List.mem_of_getElem? hot)
  simp only at hgt
  have hle := width_le_maxWidth fs i k t hi
  simp only [width] at hb
  rw [Ty.build2, hl] at ho
  simp only [sum2, h1, if_neg h3, Except.ok.injEq] at ho
  obtain ⟨f1, _⟩ := slice_field (b := b) (base := tagBits fs.toList.length) (w := width t) (by omega)
  refine ⟨(b.slice (tagBits fs.toList.length) (tagBits fs.toList.length + ot.width)).val, ?_⟩
  rw [← ho]
  simp only
  rw [optsFrom_key _ l 0 i k t ot hnd hot]
  simp only [hgt.width, Except.ok.injEq]
  apply BV.ext
  · rw [f1, BV.ofNat_size]
  · have h := (b.slice (tagBits fs.toList.length) (tagBits fs.toList.length + width t)).isLt
    rw [f1] at h
    rw [BV.ofNat_val, Nat.mod_eq_of_lt h]

/-- C17 for assembler2's `AssembledADT`, unions: the held option matches with its value, no other option does. -/
theorem C17_option2 (c : Nat) (fs : Fields) (k : Key) (t : Ty) (v : Val)
    (hw : WF (.sum c fs)) (hk : (k, t) ∈ fs.toList) (hv : t.Has v) :
    ∃ x f, AV.new2 (.sum c fs) (.raw (.sum k v)) = .ok x ∧ AV.new2 t (.raw v) = .ok f ∧
      x.getOption2 k = .ok (true, f) ∧
      ∀ k' t', (k', t') ∈ fs.toList → ∃ f', x.getOption2 k' = .ok (decide (k' = k), f') := by
  obtain ⟨i, hi⟩ := List.getElem?_of_mem hk
  have hv' : (Ty.sum c fs).Has (.sum k v) := (hasAt_iff hw.2.1 k v).2 ⟨i, t, hi, hv⟩
  have hwt := wfs_mem fs hw.2.2 i k t hi
  obtain ⟨o, b, ot, bt, h1, h2, h3, h4, h5, _, h7, _⟩ := C15_match_extract_union c fs k t v hw hk hv
  obtain ⟨o', e1, hg⟩ := build2_ok _ hw
  rw [h1, Except.ok.injEq] at e1; subst e1
  obtain ⟨ot', e1, hgt⟩ := build2_ok _ hwt
  rw [h3, Except.ok.injEq] at e1; subst e1
  rw [hg.asm_ok _ hv', Except.ok.injEq] at h2
  rw [hgt.asm_ok _ hv, Except.ok.injEq] at h4
  refine ⟨_, _, new2_raw hw hv', new2_raw hwt hv, ?_, ?_⟩
  · have hs := sub2_of_extract (o := o) (t := .sum c fs) (b := b) (k := k) hwt (n := encode t v) (by rw [h5, h4])
      (lookup_of_get hw.2.1 hi)
    have hm := h7 k t hk
    simp only [mkAV, AV.getOption2, h1, h2, hs, hm, decide_true]
  · intro k' t' hk'
    obtain ⟨j, hj⟩ := List.getElem?_of_mem hk'
    obtain ⟨n, hn⟩ := sum2_extract_any hw h1 b (by rw [← h2, BV.ofNat_size]) hk'
    have hs := sub2_of_extract (o := o) (t := .sum c fs) (b := b) (k := k') (wfs_mem fs hw.2.2 j k' t' hj) hn (lookup_of_get hw.2.1 hj)
    have hm := h7 k' t' hk'
    exact ⟨mkAV t' n, by simp only [mkAV, AV.getOption2, h1, h2, hs, hm]⟩

/-! ## C18: equality -/

/-- The types whose values are wrapped. -/
def Wrapped : Ty → Prop
  | .bit _ => False
  | .bv _ _ => False
  | _ => True

theorem mkAV_wrapped {t : Ty} (h : Wrapped t) (n : Nat) : mkAV t n = .adt t (BV.ofNat (width t) n) := by
  cases t <;> simp [mkAV, Wrapped] at h ⊢

/-- C18: two assembled values are equal exactly if the values are; comparing an assembled value with an unassembled one, or with
the assembled bits of one, means the same. -/
theorem C18_eq (P : Process) (t : Ty) (v v' : Val) (hw : WF t) (ht : Wrapped t) (hv : t.Has v) (hv' : t.Has v') :
    ∃ b b', AV.new P.asm t (.raw v) = .ok (.adt t b) ∧ AV.new P.asm t (.raw v') = .ok (.adt t b') ∧
      ∃ r, (r = true ↔ v = v') ∧ AV.eq P.asm t b (.asm (.adt t b')) = .ok (some r) ∧
        AV.eq P.asm t b (.asm (.bits b')) = .ok (some r) ∧ AV.eq P.asm t b (.raw v') = .ok (some r) := by
  obtain ⟨o, ho, hg⟩ := P.good hw
  have h1 := encode_spec t hw v hv
  have h2 := encode_spec t hw v' hv'
  refine ⟨_, _, (new_raw P hw hv).trans (by rw [mkAV_wrapped ht]), (new_raw P hw hv').trans (by rw [mkAV_wrapped ht]),
    encode t v == encode t v', ?_, ?_, ?_, ?_⟩
  · rw [beq_iff_eq]
    constructor
    · intro h
      have := h1.2
      rw [h] at this
      exact reads_unique t hw _ _ _ this h2.2
    · rintro rfl; rfl
  · simp only [AV.eq, ho, if_true, ofNat_val_of_lt h1.1, ofNat_val_of_lt h2.1]
  · simp only [AV.eq, ho, hg.width, BV.ofNat_size, if_true, ofNat_val_of_lt h1.1, ofNat_val_of_lt h2.1]
  · have hi := (isinst_iff t v').2 hv'
    cases v' with
    | bits x => cases t <;> simp only [Ty.Has, Wrapped] at hv' ht
    | _ => simp only [AV.eq, ho, hi, if_true, hg.assemble hw hv', ofNat_val_of_lt h1.1, ofNat_val_of_lt h2.1]

example : WF demoIsa ∧ Wrapped demoIsa ∧ demoIsa.Has demoVal := ⟨demoIsa_wf, trivial, demoVal_has⟩

/-- C18: an assembled value is not comparable with an assembled value of another type, with bits of another width or with
something that is not a value of its type: the comparison answers `NotImplemented`, never true. -/
theorem C18_other_type (P : Process) (t : Ty) (hw : WF t) (b : BV) :
    (∀ t' b', t' ≠ t → AV.eq P.asm t b (.asm (.adt t' b')) = .ok none) ∧
    (∀ b' : BV, b'.size ≠ width t → AV.eq P.asm t b (.asm (.bits b')) = .ok none ∧ AV.eq P.asm t b (.raw (.bits b')) = .ok none) ∧
    (∀ v, (∀ b', v ≠ .bits b') → ¬ t.Has v → AV.eq P.asm t b (.raw v) = .ok none) := by
  obtain ⟨o, ho, hg⟩ := P.good hw
  refine ⟨fun t' b' h => ?_, fun b' h => ⟨?_, ?_⟩, fun v h1 h2 => ?_⟩
  · simp only [AV.eq, ho, if_neg h]
  · simp only [AV.eq, ho, hg.width, if_neg h]
  · simp only [AV.eq, ho, hg.width, if_neg h]
  · have hi : ¬ t.isinst v = true := fun h => h2 ((isinst_iff t v).1 h)
    cases v with
    | bits x => exact absurd rfl (h1 x)
    | _ => simp only [AV.eq, ho, if_neg hi]

example : (Ty.enum 7 [.lit 0]) ≠ demoIsa := by intro h; exact Ty.noConfusion h

/-- The types for which a single positional argument cannot be the only field: everything but one-field products. -/
def NotSingleton : Ty → Prop
  | .prod _ (.cons _ _ .nil) => False
  | _ => True

/-- C17: the constructor rejects (TypeError) an assembled value of another type, bits of the wrong width and anything that is
not a value of its type. -/
theorem C17_rejects (P : Process) (t : Ty) (hw : WF t) (ht : Wrapped t) (hs : NotSingleton t) :
    (∀ t' b', t' ≠ t → AV.new P.asm t (.asm (.adt t' b')) = .error .typeError) ∧
    (∀ b' : BV, b'.size ≠ width t → AV.new P.asm t (.asm (.bits b')) = .error .typeError ∧
      AV.new P.asm t (.raw (.bits b')) = .error .typeError) ∧
    (∀ v, (∀ b', v ≠ .bits b') → ¬ t.Has v → AV.new P.asm t (.raw v) = .error .typeError) := by
  obtain ⟨o, ho, hg⟩ := P.good hw
  have key : ∀ a, AV.init o.width o.assemble t a = .error .typeError → AV.new P.asm t a = .error .typeError := by
    intro a h
    cases t with
    | bit => exact ht.elim
    | bv => exact ht.elim
    | enum c ms => simp only [AV.new, ho, h]
    | sum c fs => simp only [AV.new, ho, h]
    | prod c fs =>
      cases fs with
      | nil => simp only [AV.new, ho, h]
      | cons k t' fs =>
        cases fs with
        | nil => exact hs.elim
        | cons => simp only [AV.new, ho, h]
  refine ⟨fun t' b' h => key _ ?_, fun b' h => ⟨key _ ?_, key _ ?_⟩, fun v h1 h2 => key _ ?_⟩
  · simp only [AV.init, if_neg h]
  · simp only [AV.init, hg.width, if_neg h]
  · simp only [AV.init, hg.width, if_neg h]
  · have hi : ¬ t.isinst v = true := fun h => h2 ((isinst_iff t v).1 h)
    cases v with
    | bits x => exact absurd rfl (h1 x)
    | _ => simp only [AV.init, if_neg hi]

example : WF demoIsa ∧ Wrapped demoIsa ∧ NotSingleton demoIsa := ⟨demoIsa_wf, trivial, trivial⟩

/-! ## C19: from_fields -/

/-- Arguments for the fields: each may be passed unassembled or already assembled. -/
inductive FieldArgs (P : Process) : Fields → List Val → List Arg → Prop
  | nil : FieldArgs P .nil [] []
  | raw {k t fs v vs as} : FieldArgs P fs vs as → FieldArgs P (.cons k t fs) (v :: vs) (.raw v :: as)
  | asm {k t fs v vs as a} : AV.new P.asm t (.raw v) = .ok a → FieldArgs P fs vs as →
      FieldArgs P (.cons k t fs) (v :: vs) (.asm a :: as)

theorem asBv_mkAV {t : Ty} {n : Nat} (h : n < 2 ^ width t) : (mkAV t n).asBv = BV.ofNat (width t) n := by
  cases t with
  | bit c =>
    simp only [width] at h
    rcases (by omega : n = 0 ∨ n = 1) with rfl | rfl <;> simp [mkAV, AV.asBv, width]
  | _ => rfl

theorem newFields_spec (P : Process) {fs : Fields} {vs : List Val} {as : List Arg} (h : FieldArgs P fs vs as) :
    WFs fs → fs.HasAll vs → ∃ bs, AV.newFields P.asm fs as = .ok bs ∧ bs.map (·.size) = fieldWidths fs ∧
      concatVal bs = encodeAll fs vs := by
  induction h with
  | nil => intro _ _; exact ⟨[], rfl, rfl, rfl⟩
  | raw _ ih =>
    intro hw hv
    simp only [Fields.HasAll] at hv
    obtain ⟨bs, h1, h2, h3⟩ := ih hw.2 hv.2
    have he := (encode_spec _ hw.1 _ hv.1).1
    refine ⟨_, by simp only [AV.newFields, new_raw P hw.1 hv.1, h1]; rfl, ?_, ?_⟩
    · simp only [List.map_cons, asBv_mkAV he, BV.ofNat_size, fieldWidths, h2]
    · simp only [concatVal, asBv_mkAV he, BV.ofNat_size, encodeAll, h3, ofNat_val_of_lt he]
  | asm ha _ ih =>
    intro hw hv
    simp only [Fields.HasAll] at hv
    obtain ⟨bs, h1, h2, h3⟩ := ih hw.2 hv.2
    have he := (encode_spec _ hw.1 _ hv.1).1
    rw [new_raw P hw.1 hv.1, Except.ok.injEq] at ha
    subst ha
    refine ⟨_, by simp only [AV.newFields, new_asm P hw.1, h1]; rfl, ?_, ?_⟩
    · simp only [List.map_cons, asBv_mkAV he, BV.ofNat_size, fieldWidths, h2]
    · simp only [concatVal, asBv_mkAV he, BV.ofNat_size, encodeAll, h3, ofNat_val_of_lt he]

theorem layoutFrom_parts : ∀ (fs : Fields) (base : Nat) (bs : List BV),
    bs.map (·.size) = fieldWidths fs →
    let parts := ((layoutFrom base fs).map (·.2)).zip bs
    Tiles base (base + sumWidths fs) (parts.map (·.1)) ∧ parts.map (·.2) = bs ∧ (∀ p ∈ parts, p.2.size = p.1.2 - p.1.1 ∧ p.1.1 ≤ p.1.2)
      ∧ parts.map (fun p => p.1.2 - p.1.1) = fieldWidths fs
  | .nil, base, bs, hb => by
    cases bs with
    | nil => simp [layoutFrom, Tiles, sumWidths, fieldWidths]
    | cons b bs => simp [fieldWidths] at hb
  | .cons k t fs, base, bs, hb => by
    cases bs with
    | nil => simp [fieldWidths] at hb
    | cons b bs =>
      simp only [List.map_cons, fieldWidths, List.cons.injEq] at hb
      obtain ⟨a1, a2, a3, a4⟩ := layoutFrom_parts fs (base + width t) bs hb.2
      simp only [List.map_cons, layoutFrom, List.zip_cons_cons, Tiles, sumWidths, ← Nat.add_assoc,
        List.cons.injEq, true_and, List.mem_cons, forall_eq_or_imp, fieldWidths] at a1 a2 a3 a4 ⊢
      exact ⟨⟨by omega, a1⟩, a2, ⟨by omega, a3⟩, by omega, a4⟩

/-- C19, products, partial: building from the fields, each given unassembled or assembled, equals assembling the whole value (whatever the
default for unused bits), if there is one field or all fields have positive width.
Missing: zero-width fields next to others and the empty product, where the construction fails (`C19_zero_width_field`,
`C19_empty_product`). -/
theorem C19_from_fields_product_partial (P : Process) (c : Nat) (fs : Fields) (vs : List Val) (as : List Arg) (dflt : Nat)
    (hw : WF (.prod c fs)) (hv : (Ty.prod c fs).Has (.prod vs)) (ha : FieldArgs P fs vs as) (hne : fs ≠ .nil)
    (hpos : (∀ w ∈ fs.toList.map (fun p => width p.2), 0 < w) ∨ fs.toList.length = 1) :
    ∃ x, AV.new P.asm (.prod c fs) (.raw (.prod vs)) = .ok x ∧ AV.fromFields P.asm (.prod c fs) as dflt = .ok x := by
  refine ⟨_, new_raw P hw hv, ?_⟩
  obtain ⟨o, ho, hg⟩ := P.good hw
  obtain ⟨bs, b1, b2, b3⟩ := newFields_spec P ha hw.2 hv
  obtain ⟨a1, a2, a3, a4⟩ := layoutFrom_parts fs 0 bs b2
  rw [Nat.zero_add] at a1
  simp only [AV.fromFields, ho, b1, AV.fromParts, hg.width, hg.layout, layoutOf, width, mkAV]
  rw [createFromLayout_tiles a1, a2, b3]
  · simp only [AV.init, BV.ofNat_size, if_true, encode]
  · intro hnil
    rw [hnil] at a4
    cases fs with
    | nil => exact hne rfl
    | cons k t fs => simp [fieldWidths] at a4
  · rcases hpos with hpos | hpos
    · left
      intro p hp
      have := hpos (p.1.2 - p.1.1) (by
        rw [← fieldWidths_eq, ← a4]
        exact List.mem_map_of_mem (f := fun p => p.1.2 - p.1.1) hp)
      omega
    · right
      have := congrArg List.length a4
      rw [fieldWidths_eq] at this
      simpa [hpos] using this
  · intro p hp; exact (a3 p hp).1

example (P : Process) : WF (.prod 0 (.cons 0 (.bv 0 3) (.cons 1 (.bit 0) .nil))) ∧
    (Ty.prod 0 (.cons 0 (.bv 0 3) (.cons 1 (.bit 0) .nil))).Has (.prod [.bits (BV.ofNat 3 5), .bit true]) ∧
    FieldArgs P (.cons 0 (.bv 0 3) (.cons 1 (.bit 0) .nil)) [.bits (BV.ofNat 3 5), .bit true]
      [.asm (.bits (BV.ofNat 3 5)), .raw (.bit true)] ∧
    ∀ w ∈ (Fields.cons 0 (.bv 0 3) (.cons 1 (.bit 0) .nil)).toList.map (fun p => width p.2), 0 < w :=
  ⟨by simp [WF, WFs, Fields.toList], by simp [Ty.Has, Fields.HasAll, BV.ofNat],
    .asm (by simp [AV.new, AV.plain, BV.ofNat]) (.raw .nil), by simp [Fields.toList, width]⟩

/-- C19 fails: with a zero-width field next to another field the construction raises ValueError, whatever the values. -/
theorem C19_zero_width_field (P : Process) (c : Nat) (fs : Fields) (vs : List Val) (as : List Arg) (dflt : Nat)
    (hw : WF (.prod c fs)) (hv : (Ty.prod c fs).Has (.prod vs)) (ha : FieldArgs P fs vs as) (h2 : 2 ≤ fs.toList.length)
    (hz : 0 ∈ fs.toList.map (fun p => width p.2)) :
    AV.fromFields P.asm (.prod c fs) as dflt = .error .valueError := by
  obtain ⟨o, ho, hg⟩ := P.good hw
  obtain ⟨bs, b1, b2, b3⟩ := newFields_spec P ha hw.2 hv
  obtain ⟨a1, a2, a3, a4⟩ := layoutFrom_parts fs 0 bs b2
  simp only [AV.fromFields, ho, b1, AV.fromParts, hg.width, hg.layout, layoutOf, width]
  rw [createFromLayout_zero]
  · have := congrArg List.length a4
    rw [fieldWidths_eq, List.length_map, List.length_map] at this
    rw [this]; exact h2
  · rw [← fieldWidths_eq, ← a4] at hz
    obtain ⟨p, hp, hp'⟩ := List.mem_map.1 hz
    exact ⟨p, hp, by omega⟩

example : WF (.prod 0 (.cons 0 (.bv 0 3) (.cons 1 (.enum 1 [.lit 0]) .nil))) ∧
    (Ty.prod 0 (.cons 0 (.bv 0 3) (.cons 1 (.enum 1 [.lit 0]) .nil))).Has (.prod [.bits (BV.ofNat 3 5), .enum (.lit 0)]) ∧
    0 ∈ (Fields.cons 0 (.bv 0 3) (.cons 1 (.enum 1 [.lit 0]) .nil)).toList.map (fun p => width p.2) :=
  ⟨by simp [WF, WFs, Fields.toList, autos], by simp [Ty.Has, Fields.HasAll, BV.ofNat], by decide +kernel⟩

/-- C19 fails: the empty product cannot be built from its (no) fields. -/
theorem C19_empty_product (P : Process) (c dflt : Nat) : AV.fromFields P.asm (.prod c .nil) [] dflt = .error .typeError := by
  have hw : WF (.prod c .nil) := by simp [WF, WFs, Fields.toList]
  obtain ⟨o, ho, hg⟩ := P.good hw
  simp only [AV.fromFields, ho, AV.newFields, AV.fromParts, hg.width, hg.layout, layoutOf, layoutFrom, width, sumWidths]
  simp [createFromLayout, sortRanges, rangesOk]

/-- C19, unions, partial: building from an option, unassembled or assembled, gives the value with that option's tag and payload and
with the default in the bits the option does not use; with default 0 (the default) it equals assembling the whole
value.
Missing: one-option unions and zero-width options, where the construction fails (`C19_zero_width_option`). -/
theorem C19_from_fields_union_partial (P : Process) (c : Nat) (fs : Fields) (k : Key) (t : Ty) (v : Val) (a : Arg) (dflt : Nat)
    (hw : WF (.sum c fs)) (hk : (k, t) ∈ fs.toList) (hv : t.Has v)
    (ha : a = .raw v ∨ ∃ x, AV.new P.asm t (.raw v) = .ok x ∧ a = .asm x) (h2 : 2 ≤ fs.toList.length) (hpos : 0 < width t) :
    ∃ b, AV.fromOption P.asm (.sum c fs) k a none dflt = .ok (.adt (.sum c fs) b) ∧ b.size = width (.sum c fs) ∧
      b.val = encode (.sum c fs) (.sum k v) +
        2 ^ (tagBits fs.toList.length + width t) * ((dflt % 2) * (2 ^ (maxWidth fs - width t) - 1)) ∧
      (dflt % 2 = 0 → AV.new P.asm (.sum c fs) (.raw (.sum k v)) = .ok (.adt (.sum c fs) b)) := by
  obtain ⟨i, hi⟩ := List.getElem?_of_mem hk
  have hv' : (Ty.sum c fs).Has (.sum k v) := (hasAt_iff hw.2.1 k v).2 ⟨i, t, hi, hv⟩
  have hwt := wfs_mem fs hw.2.2 i k t hi
  have hidx := optionIndex_of_get hw.2.1 hi
  have hfit := lt_tagBits (List.getElem?_eq_some_iff.1 hi).1
  have hle := width_le_maxWidth fs i k t hi
  have he := (encode_spec t hwt v hv).1
  have hlt := (encode_spec _ hw _ hv').1
  have henc : encode (.sum c fs) (.sum k v) = i + 2 ^ tagBits fs.toList.length * encode t v := by
    simp only [encode, hidx, encodeAt_get fs k v t (by rw [hidx]; exact hi)]
  have htb : 0 < tagBits fs.toList.length := by
    rcases Nat.eq_zero_or_pos (tagBits fs.toList.length) with h | h
    · have := lt_two_pow_bitLength (fs.toList.length - 1)
      unfold tagBits at h
      rw [h] at this; omega
    · exact h
  obtain ⟨o, ho, hg⟩ := P.good hw
  obtain ⟨tg, ht, hgt⟩ := hg.tag
  have hkm : k ∈ fs.toList.map (·.1) := List.mem_map_of_mem (f := (·.1)) hk
  have hnew : AV.new P.asm t a = .ok (mkAV t (encode t v)) := by
    rcases ha with rfl | ⟨x, hx, rfl⟩
    · exact new_raw P hwt hv
    · rw [new_raw P hwt hv, Except.ok.injEq] at hx
      subst hx
      exact new_asm P hwt _
  have hfill : i + 2 ^ tagBits fs.toList.length * (encode t v + 2 ^ width t * ((dflt % 2) * (2 ^ (maxWidth fs - width t) - 1)))
      = encode (.sum c fs) (.sum k v) +
        2 ^ (tagBits fs.toList.length + width t) * ((dflt % 2) * (2 ^ (maxWidth fs - width t) - 1)) := by
    rw [henc, Nat.mul_add, Nat.pow_add, Nat.mul_assoc, Nat.add_assoc]
  have hbound : i + 2 ^ tagBits fs.toList.length * (encode t v + 2 ^ width t * ((dflt % 2) * (2 ^ (maxWidth fs - width t) - 1)))
      < 2 ^ width (.sum c fs) := by
    simp only [width]
    apply pow_add_lt hfit
    rw [show maxWidth fs = width t + (maxWidth fs - width t) by omega]
    rw [show width t + (maxWidth fs - width t) - width t = maxWidth fs - width t by omega]
    apply pow_add_lt he
    have := Nat.two_pow_pos (maxWidth fs - width t)
    rcases Nat.mod_two_eq_zero_or_one dflt with h | h <;> rw [h] <;> omega
  refine ⟨BV.ofNat (width (.sum c fs)) (i + 2 ^ tagBits fs.toList.length *
    (encode t v + 2 ^ width t * ((dflt % 2) * (2 ^ (maxWidth fs - width t) - 1)))), ?_, ?_, ?_, ?_⟩
  · simp only [AV.fromOption, ho, lookup_of_get hw.2.1 hi, hnew, AsmObj.assembleTag, ht, hgt.asm_ok k hkm, hg.layout,
      sum_layout hw hi, hgt.width, hidx, hg.width, asBv_mkAV he]
    rw [createFromLayout_union htb hpos (by simp only [width]; omega) rfl rfl]
    simp only [AV.init, BV.ofNat_size, if_true]
    congr 3
    rw [ofNat_val_of_lt he, ofNat_val_of_lt hfit]
    simp only [width]
    rw [show tagBits fs.toList.length + maxWidth fs - (tagBits fs.toList.length + width t) = maxWidth fs - width t by omega]
  · rfl
  · rw [ofNat_val_of_lt hbound, hfill]
  · intro h0
    rw [new_raw P hw hv', mkAV, henc, h0]
    · simp
    all_goals simp

/-- Whatever the default, the union built from option `k` matches option `k` only and gives the payload back. -/
theorem C19_from_fields_union_reads (P : Process) (c : Nat) (fs : Fields) (k : Key) (t : Ty) (v : Val) (dflt : Nat)
    (hw : WF (.sum c fs)) (hk : (k, t) ∈ fs.toList) (hv : t.Has v) (h2 : 2 ≤ fs.toList.length) (hpos : 0 < width t) :
    ∃ x f, AV.fromOption P.asm (.sum c fs) k (.raw v) none dflt = .ok x ∧ AV.new P.asm t (.raw v) = .ok f ∧
      x.getOption P.asm k = .ok (true, f) ∧
      ∀ k' t', (k', t') ∈ fs.toList → k' ≠ k → ∃ f', x.getOption P.asm k' = .ok (false, f') := by
  obtain ⟨i, hi⟩ := List.getElem?_of_mem hk
  have hv' : (Ty.sum c fs).Has (.sum k v) := (hasAt_iff hw.2.1 k v).2 ⟨i, t, hi, hv⟩
  have hwt := wfs_mem fs hw.2.2 i k t hi
  have hidx := optionIndex_of_get hw.2.1 hi
  have hfit := lt_tagBits (List.getElem?_eq_some_iff.1 hi).1
  have hle := width_le_maxWidth fs i k t hi
  have he := (encode_spec t hwt v hv).1
  have henc : encode (.sum c fs) (.sum k v) = i + 2 ^ tagBits fs.toList.length * encode t v := by
    simp only [encode, hidx, encodeAt_get fs k v t (by rw [hidx]; exact hi)]
  obtain ⟨b, hb, hbs, hbv, _⟩ := C19_from_fields_union_partial P c fs k t v (.raw v) dflt hw hk hv (Or.inl rfl) h2 hpos
  generalize (dflt % 2) * (2 ^ (maxWidth fs - width t) - 1) = fill at hbv
  have hbv' : b.val = i + 2 ^ tagBits fs.toList.length * (encode t v + 2 ^ width t * fill) := by
    rw [hbv, henc, Nat.mul_add, Nat.pow_add, Nat.mul_assoc, Nat.add_assoc]
  refine ⟨_, _, hb, new_raw P hwt hv, ?_⟩
  obtain ⟨o, ho, hg⟩ := P.good hw
  obtain ⟨tg, ht, hgt⟩ := hg.tag
  have key : ∀ (j : Nat) (k' : Key) (t' : Ty), fs.toList[j]? = some (k', t') →
      (AV.adt (.sum c fs) b).getOption P.asm k' =
        .ok (decide (k' = k), mkAV t' (encode t v + 2 ^ width t * fill)) := by
    intro j k' t' hj
    have hlej := width_le_maxWidth fs j k' t' hj
    have hs := sub_spec P hg (wfs_mem fs hw.2.2 j k' t' hj) (b := b)
      (k := k') (off := tagBits fs.toList.length) hbs (lookup_of_get hw.2.1 hj) (sum_layout hw hj)
      (by simp only [width]; omega)
    have hkj : k' ∈ fs.toList.map (·.1) := List.mem_map_of_mem (f := (·.1)) (List.mem_of_getElem? hj)
    have htag := tag_slice (w := width (.sum c fs)) hfit (by simp only [width]; omega) b hbs hbv'
    simp only [AV.getOption, ho, hs, SubObj.tagIdx, AsmObj.sub, ht, AsmObj.assembleTag,
      hgt.asm_ok k' hkj, hgt.width, Nat.zero_add, htag, optionIndex_of_get hw.2.1 hj]
    rw [hbv', Nat.add_mul_div_left _ _ (Nat.two_pow_pos _), Nat.div_eq_of_lt hfit, Nat.zero_add]
    have hfj := lt_tagBits (List.getElem?_eq_some_iff.1 hj).1
    congr 2
    rw [decide_eq_decide]
    constructor
    · intro h
      have := congrArg BV.val h
      rw [ofNat_val_of_lt hfit, ofNat_val_of_lt hfj] at this
      subst this
      rw [hi] at hj
      simp only [Option.some.injEq, Prod.mk.injEq] at hj
      exact hj.1.symm
    · rintro rfl
      rw [← hidx, optionIndex_of_get hw.2.1 hj]
  constructor
  · rw [key i k t hi, ← mkAV_mod, Nat.add_mul_mod_self_left, Nat.mod_eq_of_lt he]
    simp
  · intro k' t' hk' hne
    obtain ⟨j, hj⟩ := List.getElem?_of_mem hk'
    exact ⟨_, by rw [key j k' t' hj, decide_eq_false hne]⟩

/-- With an explicit `tag_bv` of the tag's width, that tag is stored in place of the option's own. -/
theorem C19_tag_override (P : Process) (c : Nat) (fs : Fields) (k : Key) (t : Ty) (v : Val) (tag : BV)
    (hw : WF (.sum c fs)) (hk : (k, t) ∈ fs.toList) (hv : t.Has v) (h2 : 2 ≤ fs.toList.length) (hpos : 0 < width t)
    (htag : tag.size = tagBits fs.toList.length) :
    ∃ b, AV.fromOption P.asm (.sum c fs) k (.raw v) (some tag) 0 = .ok (.adt (.sum c fs) b) ∧
      b.size = width (.sum c fs) ∧ b.val = tag.val + 2 ^ tag.size * encode t v := by
  obtain ⟨i, hi⟩ := List.getElem?_of_mem hk
  have hwt := wfs_mem fs hw.2.2 i k t hi
  have hle := width_le_maxWidth fs i k t hi
  have he := (encode_spec t hwt v hv).1
  have htb : 0 < tagBits fs.toList.length := by
    rcases Nat.eq_zero_or_pos (tagBits fs.toList.length) with h | h
    · have := lt_two_pow_bitLength (fs.toList.length - 1)
      unfold tagBits at h
      rw [h] at this; omega
    · exact h
  obtain ⟨o, ho, hg⟩ := P.good hw
  obtain ⟨tg, ht, hgt⟩ := hg.tag
  have hbound : tag.val + 2 ^ tagBits fs.toList.length * encode t v < 2 ^ width (.sum c fs) := by
    simp only [width]
    exact pow_add_lt (htag ▸ tag.isLt) (Nat.lt_of_lt_of_le he (Nat.pow_le_pow_right (by decide) hle))
  refine ⟨BV.ofNat (width (.sum c fs)) (tag.val + 2 ^ tagBits fs.toList.length * encode t v), ?_, rfl, ?_⟩
  · simp only [AV.fromOption, ho, lookup_of_get hw.2.1 hi, new_raw P hwt hv, ht, hg.layout,
      sum_layout hw hi, hgt.width, hg.width, asBv_mkAV he]
    rw [createFromLayout_union htb hpos (by simp only [width]; omega) htag rfl]
    simp [AV.init, Nat.mod_eq_of_lt he]
  · rw [ofNat_val_of_lt hbound, htag]

example : WF demoIsa2 ∧ 2 ≤ (Fields.cons 0 (.prod 11 (.cons 0 (.enum 12 [.lit 2, .auto 0, .auto 1]) (.cons 1 (.bv 13 5) .nil)))
    (.cons 1 (.bit 14) (.cons 2 (.bv 15 1) .nil))).toList.length ∧ 0 < width (.bv 15 1) :=
  ⟨demoIsa2_wf, by simp [Fields.toList], by simp [width]⟩

/-- C19 fails: on a union with one option, or for an option of zero width, `from_fields` raises ValueError. -/
theorem C19_zero_width_option (P : Process) (c : Nat) (fs : Fields) (k : Key) (t : Ty) (v : Val) (dflt : Nat)
    (hw : WF (.sum c fs)) (hk : (k, t) ∈ fs.toList) (hv : t.Has v) (hz : fs.toList.length = 1 ∨ width t = 0) :
    AV.fromOption P.asm (.sum c fs) k (.raw v) none dflt = .error .valueError := by
  obtain ⟨i, hi⟩ := List.getElem?_of_mem hk
  have hwt := wfs_mem fs hw.2.2 i k t hi
  obtain ⟨o, ho, hg⟩ := P.good hw
  obtain ⟨tg, ht, hgt⟩ := hg.tag
  have hkm : k ∈ fs.toList.map (·.1) := List.mem_map_of_mem (f := (·.1)) hk
  simp only [AV.fromOption, ho, lookup_of_get hw.2.1 hi, new_raw P hwt hv, AsmObj.assembleTag, ht, hgt.asm_ok k hkm, hg.layout,
    sum_layout hw hi, hgt.width]
  rw [createFromLayout_zero (by simp)]
  rcases hz with hz | hz
  · refine ⟨_, List.mem_cons_of_mem _ (List.mem_singleton.2 rfl), ?_⟩
    simp [hz, tagBits, bitLength]
  · exact ⟨_, List.mem_cons_self, by simp [hz]⟩

/-- The code violates C19: there are values whose fields cannot be put together. -/
theorem C19_violated :
    ¬ ∀ (P : Process) (c : Nat) (fs : Fields) (vs : List Val) (as : List Arg) (dflt : Nat), WF (.prod c fs) →
      (Ty.prod c fs).Has (.prod vs) → FieldArgs P fs vs as →
      AV.fromFields P.asm (.prod c fs) as dflt = AV.new P.asm (.prod c fs) (.raw (.prod vs)) := by
  intro h
  have hw : WF (.prod 0 (.cons 0 (.bv 0 3) (.cons 1 (.enum 1 [.lit 0]) .nil))) := by simp [WF, WFs, Fields.toList, autos]
  have hv : (Ty.prod 0 (.cons 0 (.bv 0 3) (.cons 1 (.enum 1 [.lit 0]) .nil))).Has (.prod [.bits (BV.ofNat 3 5), .enum (.lit 0)]) := by
    simp [Ty.Has, Fields.HasAll, BV.ofNat]
  let P : Process := ⟨fun _ => []⟩
  have ha : FieldArgs P (.cons 0 (.bv 0 3) (.cons 1 (.enum 1 [.lit 0]) .nil)) [.bits (BV.ofNat 3 5), .enum (.lit 0)]
      [.raw (.bits (BV.ofNat 3 5)), .raw (.enum (.lit 0))] := .raw (.raw .nil)
  have h1 := h P 0 _ _ _ 0 hw hv ha
  rw [new_raw P hw hv, C19_zero_width_field P 0 _ _ _ 0 hw hv ha (by simp [Fields.toList]) (by decide +kernel)] at h1
  simp at h1

end Peak
