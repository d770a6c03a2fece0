import Verif.Spec.RuleRight
import Verif.Lemmas.RiscVMapPe
import Verif.Props.FpPe
/-!
# C66: mapping to the RISC-V simulator
-/

namespace Peak
open Peak.Spec

mutual
/-- The enums in a mild type. -/
theorem enum_mild : ∀ (t : Ty) (pre p : RPath) (c : Nat) (ms : List EVal), WF t → Mild t → (p, Ty.enum c ms) ∈ leafTypes t pre → WF (.enum c ms) ∧ Mild (.enum c ms)
  | .prod _ fs, pre, p, c, ms, hw, hm, h => enum_milds fs pre p c ms hw.2 hm h
  | .sum _ fs, pre, p, c, ms, hw, hm, h => enum_milds fs pre p c ms hw.2.2 hm.2.2 h
  | .bv _ _, _, _, _, _, _, _, h => by simp [leafTypes] at h
  | .bit _, _, _, _, _, _, _, h => by simp [leafTypes] at h
  | .enum _ _, _, _, _, _, hw, hm, h => by
    simp only [leafTypes, List.mem_singleton, Prod.mk.injEq] at h
    rw [h.2]
    exact ⟨hw, hm⟩
theorem enum_milds : ∀ (fs : Fields) (pre p : RPath) (c : Nat) (ms : List EVal), WFs fs → Milds fs → (p, Ty.enum c ms) ∈ leafTypesF fs pre → WF (.enum c ms) ∧ Mild (.enum c ms)
  | .nil, _, _, _, _, _, _, h => by simp [leafTypesF] at h
  | .cons k t fs, pre, p, c, ms, hw, hm, h => by
    simp only [leafTypesF, List.mem_append] at h
    rcases h with h | h
    · exact enum_mild t _ p c ms hw.1 hm.1 h
    · exact enum_milds fs pre p c ms hw.2 hm.2 h
end

/-- In a process with known validators those of the enums of a mild type are known. -/
theorem MildProcess.leaves {P : Process} (hP : MildProcess P) {t : Ty} (hw : WF t) (hm : Mild t) : ∀ p c ms, (p, Ty.enum c ms) ∈ leafTypes t [] → Known P (.enum c ms) := by
  intro p c ms h t' ht
  rcases List.mem_cons.mp ht with rfl | ht
  · exact enum_mild t [] p c ms hw hm h
  · exact hP _ _ ht

end Peak

namespace Peak.RMap
open Peak Peak.Spec
open Peak.RV (Word Idx SmtRF smtFile sext zext bvshl bvlshr bvashr bitWord Inst ArithInst ShiftInst BranchInst LoadInst AluInst)
open Peak.FPe (Wires wires_cases)

/-! ## instructions as values -/

theorem hasAt_of : ∀ {fs : Fields} {k : Key} {t : Ty} {v : Val}, (fs.toList.map (·.1)).Nodup → (k, t) ∈ fs.toList → t.Has v → fs.HasAt k v
  | .nil, _, _, _, _, h, _ => by simp [Fields.toList] at h
  | .cons k' t' fs, k, t, v, hn, hk, h => by
    simp only [Fields.toList, List.map_cons, List.nodup_cons] at hn
    simp only [Fields.toList, List.mem_cons, Prod.mk.injEq] at hk
    simp only [Fields.HasAt]
    rcases hk with ⟨rfl, rfl⟩ | hk
    · simp [h]
    · have hne : k ≠ k' := fun e => hn.1 (e ▸ List.mem_map_of_mem (f := (·.1)) hk)
      simpa [hne] using hasAt_of hn.2 hk h

theorem rawAt_of : ∀ {fs : Fields} {k : Key} {t : Ty} {v : Val}, (fs.toList.map (·.1)).Nodup → (k, t) ∈ fs.toList → rawOfAt fs k v = rawOf t v
  | .nil, _, _, _, _, h => by simp [Fields.toList] at h
  | .cons k' t' fs, k, t, v, hn, hk => by
    simp only [Fields.toList, List.map_cons, List.nodup_cons] at hn
    simp only [Fields.toList, List.mem_cons, Prod.mk.injEq] at hk
    simp only [rawOfAt]
    rcases hk with ⟨rfl, rfl⟩ | hk
    · simp
    · have hne : k ≠ k' := fun e => hn.1 (e ▸ List.mem_map_of_mem (f := (·.1)) hk)
      simpa [hne] using rawAt_of hn.2 hk

theorem bv_raw {w : Nat} (x : BitVec w) : rawOf (.bv 0 w) (bvVal x) = .leaf x.toNat := by
  simp [rawOf, bvVal, encode, BV.ofNat_val, Nat.mod_eq_of_lt x.isLt]

theorem bv_has {w : Nat} (x : BitVec w) : (Ty.bv 0 w).Has (bvVal x) := by
  simp [Ty.Has, bvVal, BV.ofNat_size]

/-- The codes of the members. -/
theorem arith_raw (t : ArithInst) : ∃ c, rawOf arithT (.enum (arithMem t)) = .leaf c ∧ arithOf c = t :=
  ⟨encode arithT (.enum (arithMem t)), rfl, by cases t <;> rfl⟩
theorem shift_raw (t : ShiftInst) : ∃ c, rawOf shiftT (.enum (shiftMem t)) = .leaf c ∧ shiftOf c = t :=
  ⟨encode shiftT (.enum (shiftMem t)), rfl, by cases t <;> rfl⟩
theorem branch_raw (t : BranchInst) : ∃ c, rawOf branchT (.enum (branchMem t)) = .leaf c ∧ branchOf c = t :=
  ⟨encode branchT (.enum (branchMem t)), rfl, by cases t <;> rfl⟩
theorem load_raw (t : LoadInst) : ∃ c, rawOf loadT (.enum (loadMem t)) = .leaf c ∧ loadOf c = t :=
  ⟨encode loadT (.enum (loadMem t)), rfl, by cases t <;> rfl⟩

theorem arith_hasV (t : ArithInst) : arithT.Has (.enum (arithMem t)) := by cases t <;> simp [arithT, Ty.Has, arithMem]
theorem shift_hasV (t : ShiftInst) : shiftT.Has (.enum (shiftMem t)) := by cases t <;> simp [shiftT, Ty.Has, shiftMem]
theorem branch_hasV (t : BranchInst) : branchT.Has (.enum (branchMem t)) := by cases t <;> simp [branchT, Ty.Has, branchMem]
theorem load_hasV (t : LoadInst) : loadT.Has (.enum (loadMem t)) := by cases t <;> simp [loadT, Ty.Has, loadMem]

theorem alu_hasV (t : AluInst) : aluT.Has (aluVal t) := by
  cases t with
  | arith t => exact hasAt_of alu_wf.2.1 alu_mem.1 (arith_hasV t)
  | shift t => exact hasAt_of alu_wf.2.1 alu_mem.2 (shift_hasV t)

theorem alu_rawV (t : AluInst) : ∃ k c, rawOf aluT (aluVal t) = .sum k (.leaf c) ∧ aluOf k c = t := by
  cases t with
  | arith t =>
    obtain ⟨c, h, e⟩ := arith_raw t
    exact ⟨kArith, c, congrArg (RVal.sum kArith) ((rawAt_of alu_wf.2.1 alu_mem.1).trans h), by simp [aluOf, e]⟩
  | shift t =>
    obtain ⟨c, h, e⟩ := shift_raw t
    exact ⟨kShift, c, congrArg (RVal.sum kShift) ((rawAt_of alu_wf.2.1 alu_mem.2).trans h), by simp [aluOf, e, kShift, kArith]⟩

theorem imm_mem : (kArith, immAT) ∈ (Fields.cons kArith immAT (.cons kShift immST .nil)).toList ∧ (kShift, immST) ∈ (Fields.cons kArith immAT (.cons kShift immST .nil)).toList := by
  simp [Fields.toList]

theorem option_mem : (oOP, opT) ∈ options ∧ (oIMM, immT) ∈ options ∧ (oLUI, luiT) ∈ options ∧ (oAUIPC, auipcT) ∈ options ∧ (oJAL, jalT) ∈ options ∧
    (oJALR, jalrT) ∈ options ∧ (oBranch, brT) ∈ options ∧ (oLoad, ldT) ∈ options ∧ (oStore, stT) ∈ options := by
  simp [options]

/-- An instruction is a value of the type. -/
theorem inst_has {opts : Fields} (ho : opts.toList.Perm options) (i : Inst) : (instT opts).Has (instVal i) := by
  have hn := (inst_wf ho).2.1
  obtain ⟨m1, m2, m3, m4, m5, m6, m7, m8, m9⟩ := option_mem
  cases i with
  | OP d t => exact hasAt_of hn (ho.mem_iff.mpr m1) ⟨⟨bv_has _, bv_has _, bv_has _, trivial⟩, alu_hasV t, trivial⟩
  | OP_IMM o =>
    cases o with
    | arith d t => exact hasAt_of hn (ho.mem_iff.mpr m2) (hasAt_of imm_wf.2.1 imm_mem.1 ⟨⟨bv_has _, bv_has _, bv_has _, trivial⟩, arith_hasV t, trivial⟩)
    | shift d t => exact hasAt_of hn (ho.mem_iff.mpr m2) (hasAt_of imm_wf.2.1 imm_mem.2 ⟨⟨bv_has _, bv_has _, bv_has _, trivial⟩, shift_hasV t, trivial⟩)
  | LUI d => exact hasAt_of hn (ho.mem_iff.mpr m3) ⟨⟨bv_has _, bv_has _, trivial⟩, trivial⟩
  | AUIPC d => exact hasAt_of hn (ho.mem_iff.mpr m4) ⟨⟨bv_has _, bv_has _, trivial⟩, trivial⟩
  | JAL d => exact hasAt_of hn (ho.mem_iff.mpr m5) ⟨⟨bv_has _, bv_has _, trivial⟩, trivial⟩
  | JALR d => exact hasAt_of hn (ho.mem_iff.mpr m6) ⟨⟨bv_has _, bv_has _, bv_has _, trivial⟩, trivial⟩
  | Branch d t => exact hasAt_of hn (ho.mem_iff.mpr m7) ⟨⟨bv_has _, bv_has _, bv_has _, trivial⟩, branch_hasV t, trivial⟩
  | Load d t => exact hasAt_of hn (ho.mem_iff.mpr m8) ⟨⟨bv_has _, bv_has _, bv_has _, trivial⟩, load_hasV t, trivial⟩
  | Store d t => exact hasAt_of hn (ho.mem_iff.mpr m9) ⟨⟨bv_has _, bv_has _, bv_has _, trivial⟩, load_hasV t, trivial⟩

theorem raw_prod (c : Nat) (fs : Fields) (vs : List Val) : rawOf (.prod c fs) (.prod vs) = .prod (rawOfAll fs vs) := rfl
theorem raw_cons (k : Key) (t : Ty) (fs : Fields) (v : Val) (vs : List Val) : rawOfAll (.cons k t fs) (v :: vs) = rawOf t v :: rawOfAll fs vs := rfl
theorem raw_nil (vs : List Val) : rawOfAll .nil vs = [] := by cases vs <;> rfl

/-- Its bits decode to it. -/
theorem inst_raw {opts : Fields} (ho : opts.toList.Perm options) (i : Inst) : ofRaw (rawOf (instT opts) (instVal i)) = i := by
  have hn := (inst_wf ho).2.1
  obtain ⟨m1, m2, m3, m4, m5, m6, m7, m8, m9⟩ := option_mem
  cases i with
  | OP d t =>
    obtain ⟨k, c, h, e⟩ := alu_rawV t
    have h0 : rawOf (instT opts) (instVal (.OP d t)) = .sum oOP (.prod [.prod [.leaf d.rd.toNat, .leaf d.rs1.toNat, .leaf d.rs2.toNat], .sum k (.leaf c)]) := by
      refine congrArg (RVal.sum oOP) ((rawAt_of hn (ho.mem_iff.mpr m1)).trans ?_)
      simp only [opT, rT, raw_prod, raw_cons, raw_nil, bv_raw, h]
    rw [h0]
    simp [ofRaw, oOP, oIMM, oLUI, oAUIPC, oJAL, oJALR, oBranch, oLoad, oStore, kArith, kShift, e]
  | OP_IMM o =>
    cases o with
    | arith d t =>
      obtain ⟨c, h, e⟩ := arith_raw t
      have h0 : rawOf (instT opts) (instVal (.OP_IMM (.arith d t))) = .sum oIMM (.sum kArith (.prod [.prod [.leaf d.rd.toNat, .leaf d.rs1.toNat, .leaf d.imm.toNat], .leaf c])) := by
        refine congrArg (RVal.sum oIMM) ((rawAt_of hn (ho.mem_iff.mpr m2)).trans ?_)
        refine congrArg (RVal.sum kArith) ((rawAt_of imm_wf.2.1 imm_mem.1).trans ?_)
        simp only [immAT, iT, raw_prod, raw_cons, raw_nil, bv_raw, h]
      rw [h0]
      simp [ofRaw, oOP, oIMM, oLUI, oAUIPC, oJAL, oJALR, oBranch, oLoad, oStore, kArith, kShift, e]
    | shift d t =>
      obtain ⟨c, h, e⟩ := shift_raw t
      have h0 : rawOf (instT opts) (instVal (.OP_IMM (.shift d t))) = .sum oIMM (.sum kShift (.prod [.prod [.leaf d.rd.toNat, .leaf d.rs1.toNat, .leaf d.imm.toNat], .leaf c])) := by
        refine congrArg (RVal.sum oIMM) ((rawAt_of hn (ho.mem_iff.mpr m2)).trans ?_)
        refine congrArg (RVal.sum kShift) ((rawAt_of imm_wf.2.1 imm_mem.2).trans ?_)
        simp only [immST, isT, raw_prod, raw_cons, raw_nil, bv_raw, h]
      rw [h0]
      simp [ofRaw, oOP, oIMM, oLUI, oAUIPC, oJAL, oJALR, oBranch, oLoad, oStore, kArith, kShift, e]
  | LUI d =>
    have h0 : rawOf (instT opts) (instVal (.LUI d)) = .sum oLUI (.prod [.prod [.leaf d.rd.toNat, .leaf d.imm.toNat]]) := by
      refine congrArg (RVal.sum oLUI) ((rawAt_of hn (ho.mem_iff.mpr m3)).trans ?_)
      simp only [luiT, uT, raw_prod, raw_cons, raw_nil, bv_raw]
    rw [h0]
    simp [ofRaw, oOP, oIMM, oLUI, oAUIPC, oJAL, oJALR, oBranch, oLoad, oStore, kArith, kShift]
  | AUIPC d =>
    have h0 : rawOf (instT opts) (instVal (.AUIPC d)) = .sum oAUIPC (.prod [.prod [.leaf d.rd.toNat, .leaf d.imm.toNat]]) := by
      refine congrArg (RVal.sum oAUIPC) ((rawAt_of hn (ho.mem_iff.mpr m4)).trans ?_)
      simp only [auipcT, uT, raw_prod, raw_cons, raw_nil, bv_raw]
    rw [h0]
    simp [ofRaw, oOP, oIMM, oLUI, oAUIPC, oJAL, oJALR, oBranch, oLoad, oStore, kArith, kShift]
  | JAL d =>
    have h0 : rawOf (instT opts) (instVal (.JAL d)) = .sum oJAL (.prod [.prod [.leaf d.rd.toNat, .leaf d.imm.toNat]]) := by
      refine congrArg (RVal.sum oJAL) ((rawAt_of hn (ho.mem_iff.mpr m5)).trans ?_)
      simp only [jalT, jT, raw_prod, raw_cons, raw_nil, bv_raw]
    rw [h0]
    simp [ofRaw, oOP, oIMM, oLUI, oAUIPC, oJAL, oJALR, oBranch, oLoad, oStore, kArith, kShift]
  | JALR d =>
    have h0 : rawOf (instT opts) (instVal (.JALR d)) = .sum oJALR (.prod [.prod [.leaf d.rd.toNat, .leaf d.rs1.toNat, .leaf d.imm.toNat]]) := by
      refine congrArg (RVal.sum oJALR) ((rawAt_of hn (ho.mem_iff.mpr m6)).trans ?_)
      simp only [jalrT, iT, raw_prod, raw_cons, raw_nil, bv_raw]
    rw [h0]
    simp [ofRaw, oOP, oIMM, oLUI, oAUIPC, oJAL, oJALR, oBranch, oLoad, oStore, kArith, kShift]
  | Branch d t =>
    obtain ⟨c, h, e⟩ := branch_raw t
    have h0 : rawOf (instT opts) (instVal (.Branch d t)) = .sum oBranch (.prod [.prod [.leaf d.rs1.toNat, .leaf d.rs2.toNat, .leaf d.imm.toNat], .leaf c]) := by
      refine congrArg (RVal.sum oBranch) ((rawAt_of hn (ho.mem_iff.mpr m7)).trans ?_)
      simp only [brT, bT, raw_prod, raw_cons, raw_nil, bv_raw, h]
    rw [h0]
    simp [ofRaw, oOP, oIMM, oLUI, oAUIPC, oJAL, oJALR, oBranch, oLoad, oStore, kArith, kShift, e]
  | Load d t =>
    obtain ⟨c, h, e⟩ := load_raw t
    have h0 : rawOf (instT opts) (instVal (.Load d t)) = .sum oLoad (.prod [.prod [.leaf d.rd.toNat, .leaf d.rs1.toNat, .leaf d.imm.toNat], .leaf c]) := by
      refine congrArg (RVal.sum oLoad) ((rawAt_of hn (ho.mem_iff.mpr m8)).trans ?_)
      simp only [ldT, iT, raw_prod, raw_cons, raw_nil, bv_raw, h]
    rw [h0]
    simp [ofRaw, oOP, oIMM, oLUI, oAUIPC, oJAL, oJALR, oBranch, oLoad, oStore, kArith, kShift, e]
  | Store d t =>
    obtain ⟨c, h, e⟩ := load_raw t
    have h0 : rawOf (instT opts) (instVal (.Store d t)) = .sum oStore (.prod [.prod [.leaf d.rs1.toNat, .leaf d.rs2.toNat, .leaf d.imm.toNat], .leaf c]) := by
      refine congrArg (RVal.sum oStore) ((rawAt_of hn (ho.mem_iff.mpr m9)).trans ?_)
      simp only [stT, sT, raw_prod, raw_cons, raw_nil, bv_raw, h]
    rw [h0]
    simp [ofRaw, oOP, oIMM, oLUI, oAUIPC, oJAL, oJALR, oBranch, oLoad, oStore, kArith, kShift, e]

/-! ## what instructions compute -/

theorem alu_result (op : AluInst) (a b : Word) : RV.alu op a b = result op a b := by
  cases op with
  | arith t =>
    rw [RV.alu_spec (.arith t) a b (fun _ h => by cases h)]
    cases t <;> rfl
  | shift t =>
    cases t with
    | SLL =>
      apply BitVec.eq_of_toNat_eq
      simp [RV.alu, bvshl, result, Nat.shiftLeft_eq]
    | SRL =>
      apply BitVec.eq_of_toNat_eq
      simp only [RV.alu, bvlshr, result, BitVec.toNat_ushiftRight, Nat.shiftRight_eq_div_pow, BitVec.toNat_ofNat]
      exact (Nat.mod_eq_of_lt (Nat.lt_of_le_of_lt (Nat.div_le_self _ _) a.isLt)).symm
    | SRA =>
      simp only [RV.alu, bvashr, result, BitVec.sshiftRight, Int.shiftRight_eq_div_pow]
      norm_cast

/-- The value written by an instruction with these registers. -/
theorem outs_op (d : RV.R) (t : AluInst) (pc a b z : Word) :
    (outs (.OP d t) pc a b z).2 = if d.rd ≠ 0 then result t (if d.rs1 ≠ 0 then a else 0) (if d.rs2 ≠ 0 then b else 0) else z := by
  rw [← alu_result]
  have : (outs (.OP d t) pc a b z).2 = if d.rd ≠ 0 then RV.alu t (if d.rs1 ≠ 0 then a else 0) (if d.rs2 ≠ 0 then b else 0) &&& BitVec.ofInt 32 (-1) else z := rfl
  rw [this, RV.full_mask]

theorem outs_immA (d : RV.I) (t : ArithInst) (pc a b z : Word) :
    (outs (.OP_IMM (.arith d t)) pc a b z).2 = if d.rd ≠ 0 then result (.arith t) (if d.rs1 ≠ 0 then a else 0) (BitVec.ofInt 32 d.imm.toInt) else z := by
  rw [← alu_result]
  have : (outs (.OP_IMM (.arith d t)) pc a b z).2 = if d.rd ≠ 0 then RV.alu (.arith t) (if d.rs1 ≠ 0 then a else 0) (sext d.imm 20) &&& BitVec.ofInt 32 (-1) else z := rfl
  rw [this, RV.full_mask]
  rfl

theorem outs_immS (d : RV.Is) (t : ShiftInst) (pc a b z : Word) :
    (outs (.OP_IMM (.shift d t)) pc a b z).2 = if d.rd ≠ 0 then result (.shift t) (if d.rs1 ≠ 0 then a else 0) (BitVec.ofNat 32 d.imm.toNat) else z := by
  rw [← alu_result]
  have : (outs (.OP_IMM (.shift d t)) pc a b z).2 = if d.rd ≠ 0 then RV.alu (.shift t) (if d.rs1 ≠ 0 then a else 0) (zext d.imm 27) &&& BitVec.ofInt 32 (-1) else z := rfl
  have he : (zext d.imm 27 : Word) = BitVec.ofNat 32 d.imm.toNat := by
    apply BitVec.eq_of_toNat_eq
    simp [zext]
  rw [this, RV.full_mask, he]

theorem outs_lui (d : RV.U) (pc a b z : Word) : (outs (.LUI d) pc a b z).2 = if d.rd ≠ 0 then BitVec.ofNat 32 (d.imm.toNat * 4096) else z := by
  have : (outs (.LUI d) pc a b z).2 = if d.rd ≠ 0 then ((0 : Word) + bvshl (sext d.imm 12) 12) &&& BitVec.ofInt 32 (-1) else z := rfl
  rw [this, RV.full_mask, RV.upper]
  have : (0 : Word) + BitVec.ofNat 32 (d.imm.toNat * 4096) = BitVec.ofNat 32 (d.imm.toNat * 4096) := BitVec.zero_add _
  rw [this]

theorem outs_auipc (d : RV.U) (pc a b z : Word) : (outs (.AUIPC d) pc a b z).2 = if d.rd ≠ 0 then pc + bvshl (sext d.imm 12) 12 else z := by
  have : (outs (.AUIPC d) pc a b z).2 = if d.rd ≠ 0 then (pc + bvshl (sext d.imm 12) 12) &&& BitVec.ofInt 32 (-1) else z := rfl
  rw [this, RV.full_mask]

theorem outs_jal (d : RV.J) (pc a b z : Word) : (outs (.JAL d) pc a b z).2 = if d.rd ≠ 0 then pc + 4 else z := rfl
theorem outs_jalr (d : RV.I) (pc a b z : Word) : (outs (.JALR d) pc a b z).2 = if d.rd ≠ 0 then pc + 4 else z := rfl
theorem outs_branch (d : RV.B) (t : BranchInst) (pc a b z : Word) : (outs (.Branch d t) pc a b z).2 = z := by cases t <;> rfl
theorem outs_load (d : RV.I) (t : LoadInst) (pc a b z : Word) : (outs (.Load d t) pc a b z).2 = z := rfl
theorem outs_store (d : RV.S) (t : LoadInst) (pc a b z : Word) : (outs (.Store d t) pc a b z).2 = z := rfl

/-! ## wirings -/

theorem mod32 (n : Nat) : BitVec.ofNat 32 (n % 2 ^ 32) = .ofNat 32 n := by
  apply BitVec.eq_of_toNat_eq
  simp

/-- The word at a port. -/
def port (s : Option Nat) (xs : List Word) (z : Word) : Word :=
  match s with
  | some q => xs[q - 1]?.getD 0
  | none => z

/-- With this instruction and these wires the simulator computes `f`. -/
def Does (n : Nat) (f : List Word → Word) (i : Inst) (s1 s2 : Option Nat) : Prop :=
  ∀ xs z1 z2 pc z, xs.length = n → f xs = (outs i pc (port s1 xs z1) (port s2 xs z2) z).2

/-- The inputs that hold the words. -/
def envOf (xs : List Word) (k : Key) : Nat := (xs[(show Nat from k) - 1]?.getD 0).toNat

theorem row_get (x : Key → Nat) : ∀ (n i j : Nat), j < n → ((rowOf (wordFields 32 i n) x).map (WIr.leafWord 32))[j]? = some (.ofNat 32 (x (i + j)))
  | 0, _, _, h => by omega
  | n + 1, i, 0, _ => by
    simp only [wordFields, rowOf, List.map_cons, List.getElem?_cons_zero, WIr.leafWord, width, mod32]
    rfl
  | n + 1, i, j + 1, h => by
    simp only [wordFields, rowOf, List.map_cons, List.getElem?_cons_succ]
    rw [row_get x n (i + 1) j (by omega)]
    congr 3
    show i + 1 + j = i + (j + 1)
    omega

theorem row_len (x : Key → Nat) : ∀ (n i : Nat), ((rowOf (wordFields 32 i n) x).map (WIr.leafWord 32)).length = n
  | 0, _ => rfl
  | n + 1, i => by
    simp only [wordFields, rowOf, List.map_cons, List.length_cons]
    rw [row_len x n (i + 1)]

theorem row_env {n : Nat} {xs : List Word} (h : xs.length = n) : (rowOf (wordFields 32 1 n) (envOf xs)).map (WIr.leafWord 32) = xs := by
  apply List.ext_getElem?
  intro j
  by_cases hj : j < n
  · rw [row_get _ n 1 j hj]
    have : ((1 + j : Nat) - 1 : Nat) = j := by omega
    simp only [envOf, BitVec.ofNat_toNat, BitVec.setWidth_eq]
    show some (xs[1 + j - 1]?.getD 0) = xs[j]?
    rw [this, List.getElem?_eq_getElem (by omega)]
    rfl
  · rw [List.getElem?_eq_none (by rw [row_len]; omega), List.getElem?_eq_none (by omega)]

theorem wires_of {n : Nat} {src : Key → Option Key} (h : IsAssignment dIn.toList (wordFields 32 1 n).toList src) :
    Wires n (src 2) (src 3) ∧ src 1 = none ∧ src 4 = none := by
  have h1 : src 1 = none := by
    cases e : src 1 with
    | none => rfl
    | some q =>
      have := WIr.fields_mem.mp (h.typed 1 (.bv 2 32) q (by simp [dIn, Fields.toList]) e)
      simp at this
  have h4 : src 4 = none := by
    cases e : src 4 with
    | none => rfl
    | some q =>
      have := WIr.fields_mem.mp (h.typed 4 (.bv 1 32) q (by simp [dIn, Fields.toList]) e)
      simp at this
  refine ⟨⟨?_, ?_, ?_⟩, h1, h4⟩
  · intro k hk1 hk2
    obtain ⟨a, ha, hs, _⟩ := h.once k (.bv 0 32) (WIr.fields_mem.mpr ⟨hk1, by omega, rfl⟩)
    simp only [dIn, Fields.toList, List.map_cons, List.map_nil, List.mem_cons, List.not_mem_nil, or_false] at ha
    rcases ha with rfl | rfl | rfl | rfl
    · rw [h1] at hs; cases hs
    · exact .inl hs
    · exact .inr hs
    · rw [h4] at hs; cases hs
  · intro k hk
    have t := h.typed 2 (.bv 0 32) k (by simp [dIn, Fields.toList]) hk
    have := WIr.fields_mem.mp t
    refine ⟨this.1, by omega, ?_⟩
    intro hk2
    obtain ⟨a, _, _, hu⟩ := h.once k _ t
    have e1 := hu 2 (by simp [dIn, Fields.toList]) hk
    have e2 := hu 3 (by simp [dIn, Fields.toList]) hk2
    exact absurd (e1.trans e2.symm) (by decide)
  · intro k hk
    have := WIr.fields_mem.mp (h.typed 3 (.bv 0 32) k (by simp [dIn, Fields.toList]) hk)
    exact ⟨this.1, by omega⟩

/-- The assignment with these wires. -/
def srcOf (s1 s2 : Option Nat) : Key → Option Key := fun k => if k = (2 : Nat) then s1 else if k = (3 : Nat) then s2 else none

theorem of_wires {n : Nat} {s1 s2 : Option Nat} (h : Wires n s1 s2) : IsAssignment dIn.toList (wordFields 32 1 n).toList (srcOf s1 s2) := by
  obtain ⟨h1, h2, h3⟩ := h
  constructor
  · intro a t q ha hq
    simp only [dIn, Fields.toList, List.mem_cons, Prod.mk.injEq, List.not_mem_nil, or_false] at ha
    rw [WIr.fields_mem]
    rcases ha with ⟨rfl, rfl⟩ | ⟨rfl, rfl⟩ | ⟨rfl, rfl⟩ | ⟨rfl, rfl⟩
    · cases hq
    · have := h2 q hq
      exact ⟨this.1, by omega, rfl⟩
    · have := h3 q hq
      exact ⟨this.1, by omega, rfl⟩
    · cases hq
  · intro q t hq
    obtain ⟨l1, l2, _⟩ := WIr.fields_mem.mp hq
    rcases h1 q l1 (by omega) with hs | hs
    · refine ⟨2, by simp [dIn, Fields.toList], hs, fun b hb hbq => ?_⟩
      simp only [dIn, Fields.toList, List.map_cons, List.map_nil, List.mem_cons, List.not_mem_nil, or_false] at hb
      rcases hb with rfl | rfl | rfl | rfl
      · cases hbq
      · rfl
      · exact absurd hbq (h2 q hs).2.2
      · cases hbq
    · refine ⟨3, by simp [dIn, Fields.toList], hs, fun b hb hbq => ?_⟩
      simp only [dIn, Fields.toList, List.map_cons, List.map_nil, List.mem_cons, List.not_mem_nil, or_false] at hb
      rcases hb with rfl | rfl | rfl | rfl
      · cases hbq
      · exact absurd hs (h2 q hbq).2.2
      · rfl
      · cases hbq

/-- The output `rd` is the result. -/
def outOf : Key → Option Key := fun k => if k = (1 : Nat) then some 0 else none

theorem of_out : IsAssignment dOut.toList (Fields.cons 0 (.bv 0 32) .nil).toList outOf := by
  constructor
  · intro a t q ha hq
    simp only [dOut, Fields.toList, List.mem_cons, Prod.mk.injEq, List.not_mem_nil, or_false] at ha
    rcases ha with ⟨rfl, rfl⟩ | ⟨rfl, rfl⟩
    · cases hq
    · cases hq
      simp [Fields.toList]
  · intro q t hq
    simp only [Fields.toList, List.mem_singleton, Prod.mk.injEq] at hq
    rw [hq.1]
    refine ⟨1, by simp [dOut, Fields.toList], rfl, fun b hb hbq => ?_⟩
    simp only [dOut, Fields.toList, List.map_cons, List.map_nil, List.mem_cons, List.not_mem_nil, or_false] at hb
    rcases hb with rfl | rfl
    · cases hbq
    · rfl

/-- What the mapper requires, in terms of instructions and wires. -/
theorem does_of {n : Nat} {f : List Word → Word} {r : RVal} {src out : Key → Option Key} (h : ComputesWith (WIr.wordFn 32 f) peFn (wordFields 32 1 n) (.cons 0 (.bv 0 32) .nil) dIn dOut r src out) :
    Wires n (src 2) (src 3) ∧ Does n f (ofRaw r) (src 2) (src 3) := by
  obtain ⟨hS, hO, h⟩ := h
  obtain ⟨hW, h1, h4⟩ := wires_of hS
  refine ⟨hW, ?_⟩
  have hout : out 1 = some 0 := by
    obtain ⟨o, ho, hout, _⟩ := hO.once 0 (.bv 0 32) (by simp [Fields.toList])
    simp only [dOut, Fields.toList, List.map_cons, List.map_nil, List.mem_cons, List.not_mem_nil, or_false] at ho
    rcases ho with rfl | rfl
    · have := hO.typed 0 (.bv 2 32) 0 (by simp [dOut, Fields.toList]) hout
      simp [Fields.toList] at this
    · exact hout
  intro xs z1 z2 pc z hl
  have := h (envOf xs) (fun k => if k = (1 : Nat) then pc.toNat else if k = (2 : Nat) then z1.toNat else if k = (3 : Nat) then z2.toNat else z.toNat) 1 (by simp [dOut, Fields.toList]) 0 hout
  simp only [WIr.wordFn, row_env hl] at this
  simp only [prodBits, fieldBits, if_true, dIn, rowOf, peFn, dOut, width, mod32] at this
  rw [if_neg (show ¬ (1 : Key) = 0 from by decide)] at this
  have e := (BitVec.eq_of_toNat_eq this).symm
  rw [e]
  have p1 : BitVec.ofNat 32 (wired src (envOf xs) (fun k => if k = (1 : Nat) then pc.toNat else if k = (2 : Nat) then z1.toNat else if k = (3 : Nat) then z2.toNat else z.toNat) 1) = pc := by
    simp [wired, h1]
  have p4 : BitVec.ofNat 32 (wired src (envOf xs) (fun k => if k = (1 : Nat) then pc.toNat else if k = (2 : Nat) then z1.toNat else if k = (3 : Nat) then z2.toNat else z.toNat) 4) = z := by
    simp [wired, h4]
  have p2 : BitVec.ofNat 32 (wired src (envOf xs) (fun k => if k = (1 : Nat) then pc.toNat else if k = (2 : Nat) then z1.toNat else if k = (3 : Nat) then z2.toNat else z.toNat) 2) = port (src 2) xs z1 := by
    simp only [wired]
    cases src 2 with
    | none => simp [port]
    | some q => simp [port, envOf]
  have p3 : BitVec.ofNat 32 (wired src (envOf xs) (fun k => if k = (1 : Nat) then pc.toNat else if k = (2 : Nat) then z1.toNat else if k = (3 : Nat) then z2.toNat else z.toNat) 3) = port (src 3) xs z2 := by
    simp only [wired]
    cases src 3 with
    | none => simp [port]
    | some q => simp [port, envOf]
  rw [p1, p2, p3, p4]

theorem of_does {n : Nat} {f : List Word → Word} {r : RVal} {s1 s2 : Option Nat} (hW : Wires n s1 s2) (h : Does n f (ofRaw r) s1 s2) :
    ComputesWith (WIr.wordFn 32 f) peFn (wordFields 32 1 n) (.cons 0 (.bv 0 32) .nil) dIn dOut r (srcOf s1 s2) outOf := by
  refine ⟨of_wires hW, of_out, ?_⟩
  intro x z k hk q hq
  simp only [dOut, Fields.toList, List.map_cons, List.map_nil, List.mem_cons, List.not_mem_nil, or_false] at hk
  rcases hk with rfl | rfl
  · cases hq
  · cases hq
    have e := h ((rowOf (wordFields 32 1 n) x).map (WIr.leafWord 32)) (.ofNat 32 (z 2)) (.ofNat 32 (z 3)) (.ofNat 32 (z 1)) (.ofNat 32 (z 4)) (row_len x n 1)
    simp only [WIr.wordFn, e]
    simp only [prodBits, fieldBits, if_true, dIn, rowOf, peFn, dOut, width, mod32]
    rw [if_neg (show ¬ (1 : Key) = 0 from by decide)]
    have p2 : BitVec.ofNat 32 (wired (srcOf s1 s2) x z 2) = port s1 ((rowOf (wordFields 32 1 n) x).map (WIr.leafWord 32)) (.ofNat 32 (z 2)) := by
      simp only [wired, srcOf, if_true]
      cases s1 with
      | none => rfl
      | some q =>
        obtain ⟨l1, l2, _⟩ := hW.2.1 q rfl
        simp only [port]
        rw [row_get x n 1 (q - 1) (by omega)]
        have : 1 + (q - 1) = q := by omega
        simp only [Option.getD_some, this]
    have p3 : BitVec.ofNat 32 (wired (srcOf s1 s2) x z 3) = port s2 ((rowOf (wordFields 32 1 n) x).map (WIr.leafWord 32)) (.ofNat 32 (z 3)) := by
      have : ¬ (3 : Nat) = 2 := by decide
      simp only [wired, srcOf, if_true]
      cases s2 with
      | none => rfl
      | some q =>
        obtain ⟨l1, l2⟩ := hW.2.2 q rfl
        simp only [port]
        rw [row_get x n 1 (q - 1) (by omega)]
        have : 1 + (q - 1) = q := by omega
        simp only [Option.getD_some, this]
        rfl
    rw [p2, p3]
    rfl

/-! ## from instructions to functions -/

/-- The operand in a register with this wire. -/
def opd (r : Idx) (s : Option Nat) : Operand :=
  if r = 0 then .zero else match s with
    | some q => .input (q - 1)
    | none => .zero

theorem opd_val (r : Idx) (s : Option Nat) (xs : List Word) : (if r ≠ 0 then port s xs 0 else 0) = (opd r s).val xs := by
  by_cases h : r = 0
  · simp [opd, h, Operand.val]
  · cases s <;> rw [if_pos h, opd, if_neg h] <;> rfl

theorem opd_cases {n : Nat} {r : Idx} {s : Option Nat} (h : ∀ k, s = some k → 1 ≤ k ∧ k ≤ n) : opd r s = .zero ∨ ∃ i, i < n ∧ opd r s = .input i ∧ s = some (i + 1) := by
  by_cases hr : r = 0
  · exact .inl (by simp [opd, hr])
  · cases s with
    | none => exact .inl (by rw [opd, if_neg hr])
    | some q =>
      have := h q rfl
      exact .inr ⟨q - 1, by omega, by rw [opd, if_neg hr], by congr 1; omega⟩

theorem fits_of {n : Nat} (hn : 0 < n) {f : List Word → Word} {i : Inst} {s1 s2 : Option Nat} (hW : Wires n s1 s2) (h : Does n f i s1 s2) : Fits n f := by
  have hl : n ≤ 2 := by rcases wires_cases hn hW with ⟨e, _⟩ | ⟨e, _⟩ <;> omega
  have hL : (List.replicate n (0 : Word)).length = n := List.length_replicate
  refine ⟨hl, ?_⟩
  have o1 : ∀ r, opd r s1 = .zero ∨ ∃ i, i < n ∧ opd r s1 = .input i ∧ s1 = some (i + 1) := fun r => opd_cases (fun k hk => ⟨(hW.2.1 k hk).1, (hW.2.1 k hk).2.1⟩)
  have o2 : ∀ r, opd r s2 = .zero ∨ ∃ i, i < n ∧ opd r s2 = .input i ∧ s2 = some (i + 1) := fun r => opd_cases hW.2.2
  have e1 : ∀ r, opd r s1 = .zero ∨ ∃ i, i < n ∧ opd r s1 = .input i := fun r => (o1 r).imp_right (fun ⟨i, a, b, _⟩ => ⟨i, a, b⟩)
  -- the old value of the destination is arbitrary
  have hz : ∀ z z' : Word, (outs i 0 (port s1 (List.replicate n 0) 0) (port s2 (List.replicate n 0) 0) z).2 = (outs i 0 (port s1 (List.replicate n 0) 0) (port s2 (List.replicate n 0) 0) z').2 :=
    fun z z' => (h _ 0 0 0 z hL).symm.trans (h _ 0 0 0 z' hL)
  have hpc : ∀ p p' : Word, (outs i p (port s1 (List.replicate n 0) 0) (port s2 (List.replicate n 0) 0) 0).2 = (outs i p' (port s1 (List.replicate n 0) 0) (port s2 (List.replicate n 0) 0) 0).2 :=
    fun p p' => (h _ 0 0 p 0 hL).symm.trans (h _ 0 0 p' 0 hL)
  have h01 : ¬ (0 : Word) = 1 := by decide
  cases i with
  | OP d t =>
    simp only [outs_op] at hz
    by_cases hd : d.rd = 0
    · have := hz 0 1
      simp only [hd, ne_eq, not_true_eq_false, if_false] at this
      exact absurd this h01
    · refine .inl ⟨t, opd d.rs1 s1, opd d.rs2 s2, ⟨e1 _, ?_⟩, fun xs hx => ?_⟩
      · rcases o2 d.rs2 with e | ⟨j, hj, e, es⟩
        · exact .inl e
        · refine .inr (.inl ⟨j, hj, e, fun ha => ?_⟩)
          rcases o1 d.rs1 with e' | ⟨i, hi, e', es'⟩
          · rw [e'] at ha; cases ha
          · rw [e'] at ha
            cases ha
            exact (hW.2.1 _ es').2.2 es
      · rw [h xs 0 0 0 0 hx, outs_op, if_pos hd, opd_val, opd_val]
  | OP_IMM o =>
    cases o with
    | arith d t =>
      simp only [outs_immA] at hz
      by_cases hd : d.rd = 0
      · have := hz 0 1
        simp only [hd, ne_eq, not_true_eq_false, if_false] at this
        exact absurd this h01
      · refine .inl ⟨.arith t, opd d.rs1 s1, .imm12 d.imm, ⟨e1 _, .inr (.inr (.inl ⟨_, _, rfl, rfl⟩))⟩, fun xs hx => ?_⟩
        rw [h xs 0 0 0 0 hx, outs_immA, if_pos hd, opd_val]
        rfl
    | shift d t =>
      simp only [outs_immS] at hz
      by_cases hd : d.rd = 0
      · have := hz 0 1
        simp only [hd, ne_eq, not_true_eq_false, if_false] at this
        exact absurd this h01
      · refine .inl ⟨.shift t, opd d.rs1 s1, .imm5 d.imm, ⟨e1 _, .inr (.inr (.inr ⟨_, _, rfl, rfl⟩))⟩, fun xs hx => ?_⟩
        rw [h xs 0 0 0 0 hx, outs_immS, if_pos hd, opd_val]
        rfl
  | LUI d =>
    simp only [outs_lui] at hz
    by_cases hd : d.rd = 0
    · have := hz 0 1
      simp only [hd, ne_eq, not_true_eq_false, if_false] at this
      exact absurd this h01
    · exact .inr ⟨d.imm, fun xs hx => by rw [h xs 0 0 0 0 hx, outs_lui, if_pos hd]⟩
  | AUIPC d =>
    simp only [outs_auipc] at hz hpc
    by_cases hd : d.rd = 0
    · have := hz 0 1
      simp only [hd, ne_eq, not_true_eq_false, if_false] at this
      exact absurd this h01
    · have := hpc 0 1
      simp only [hd, ne_eq, not_false_eq_true, if_true] at this
      exact absurd ((BitVec.add_left_inj _).mp this) h01
  | JAL d =>
    simp only [outs_jal] at hz hpc
    by_cases hd : d.rd = 0
    · have := hz 0 1
      simp only [hd, ne_eq, not_true_eq_false, if_false] at this
      exact absurd this h01
    · have := hpc 0 1
      simp only [hd, ne_eq, not_false_eq_true, if_true] at this
      exact absurd this (by decide)
  | JALR d =>
    simp only [outs_jalr] at hz hpc
    by_cases hd : d.rd = 0
    · have := hz 0 1
      simp only [hd, ne_eq, not_true_eq_false, if_false] at this
      exact absurd this h01
    · have := hpc 0 1
      simp only [hd, ne_eq, not_false_eq_true, if_true] at this
      exact absurd this (by decide)
  | Branch d t =>
    simp only [outs_branch] at hz
    exact absurd (hz 0 1) h01
  | Load d t => exact absurd (hz 0 1) h01
  | Store d t => exact absurd (hz 0 1) h01

/-! ## and back -/

/-- The register an operand is read from. -/
def regOf : Operand → Idx
  | .input _ => 1
  | _ => 0

/-- The other of two inputs, if there are two. -/
def other (n i : Nat) : Option Nat := if n = 2 then some (2 - i) else none

theorem wires_fst {n i : Nat} (hn : n ≤ 2) (hi : i < n) : Wires n (some (i + 1)) (other n i) ∧ Wires n (other n i) (some (i + 1)) := by
  have hc : n = 1 ∧ i = 0 ∨ n = 2 ∧ i = 0 ∨ n = 2 ∧ i = 1 := by omega
  have e : ∀ k : Nat, 1 ≤ k → k ≤ 2 → k = 1 ∨ k = 2 := by omega
  rcases hc with ⟨rfl, rfl⟩ | ⟨rfl, rfl⟩ | ⟨rfl, rfl⟩
  · simp only [other]
    refine ⟨⟨fun k h1 h2 => ?_, ?_, ?_⟩, ⟨fun k h1 h2 => ?_, ?_, ?_⟩⟩
    · have : k = 1 := by omega
      simp [this]
    · intro k hk; cases hk; simp
    · intro k hk; cases hk
    · have : k = 1 := by omega
      simp [this]
    · intro k hk; cases hk
    · intro k hk; cases hk; simp
  · simp only [other, if_true]
    refine ⟨⟨fun k h1 h2 => ?_, ?_, ?_⟩, ⟨fun k h1 h2 => ?_, ?_, ?_⟩⟩
    · rcases e k h1 h2 with rfl | rfl <;> simp
    · intro k hk; cases hk; simp
    · intro k hk; cases hk; simp
    · rcases e k h1 h2 with rfl | rfl <;> simp
    · intro k hk; cases hk; simp
    · intro k hk; cases hk; simp
  · simp only [other, if_true]
    refine ⟨⟨fun k h1 h2 => ?_, ?_, ?_⟩, ⟨fun k h1 h2 => ?_, ?_, ?_⟩⟩
    · rcases e k h1 h2 with rfl | rfl <;> simp
    · intro k hk; cases hk; simp
    · intro k hk; cases hk; simp
    · rcases e k h1 h2 with rfl | rfl <;> simp
    · intro k hk; cases hk; simp
    · intro k hk; cases hk; simp

/-- Wires for a first operand alone. -/
theorem wires_one {n : Nat} (hn : 0 < n) (hn2 : n ≤ 2) {a : Operand} (ha : a = .zero ∨ ∃ i, i < n ∧ a = .input i) :
    ∃ s1 s2, Wires n s1 s2 ∧ ∀ xs z, (if regOf a ≠ 0 then port s1 xs z else 0) = a.val xs := by
  rcases ha with rfl | ⟨i, hi, rfl⟩
  · exact ⟨_, _, (wires_fst hn2 hn).1, fun xs z => rfl⟩
  · exact ⟨_, _, (wires_fst hn2 hi).1, fun xs z => rfl⟩

/-- Wires for two. -/
theorem wires_two {n : Nat} (hn : 0 < n) (hn2 : n ≤ 2) {a b : Operand} (ha : a = .zero ∨ ∃ i, i < n ∧ a = .input i) (hb : b = .zero ∨ ∃ j, j < n ∧ b = .input j ∧ a ≠ .input j) :
    ∃ s1 s2, Wires n s1 s2 ∧ ∀ xs z z', (if regOf a ≠ 0 then port s1 xs z else 0) = a.val xs ∧ (if regOf b ≠ 0 then port s2 xs z' else 0) = b.val xs := by
  rcases hb with rfl | ⟨j, hj, rfl, hne⟩
  · obtain ⟨s1, s2, hw, h⟩ := wires_one hn hn2 ha
    exact ⟨s1, s2, hw, fun xs z z' => ⟨h xs z, rfl⟩⟩
  · rcases ha with rfl | ⟨i, hi, rfl⟩
    · exact ⟨_, _, (wires_fst hn2 hj).2, fun xs z z' => ⟨rfl, rfl⟩⟩
    · have hij : i ≠ j := fun e => hne (by rw [e])
      have e2 : n = 2 := by omega
      refine ⟨_, _, (wires_fst hn2 hi).1, fun xs z z' => ⟨rfl, ?_⟩⟩
      have : 2 - i - 1 = j := by omega
      simp only [other, if_pos e2, port, this]
      rfl

theorem of_fits {n : Nat} (hn : 0 < n) {f : List Word → Word} (h : Fits n f) : ∃ i s1 s2, Wires n s1 s2 ∧ Does n f i s1 s2 := by
  obtain ⟨hn2, ⟨op, a, b, ⟨ha, hb⟩, hf⟩ | ⟨v, hf⟩⟩ := h
  · have go : b = .zero ∨ (∃ j, j < n ∧ b = .input j ∧ a ≠ .input j) → ∃ i s1 s2, Wires n s1 s2 ∧ Does n f i s1 s2 := by
      intro hb
      obtain ⟨s1, s2, hw, hv⟩ := wires_two hn hn2 ha hb
      refine ⟨.OP ⟨1, regOf a, regOf b⟩ op, s1, s2, hw, fun xs z1 z2 pc z hl => ?_⟩
      rw [hf xs hl, outs_op, if_pos (by simp), (hv xs z1 z2).1, (hv xs z1 z2).2]
    rcases hb with hb | hb | ⟨v, t, rfl, rfl⟩ | ⟨v, t, rfl, rfl⟩
    · exact go (.inl hb)
    · exact go (.inr hb)
    · obtain ⟨s1, s2, hw, hv⟩ := wires_one hn hn2 ha
      refine ⟨.OP_IMM (.arith ⟨1, regOf a, v⟩ t), s1, s2, hw, fun xs z1 z2 pc z hl => ?_⟩
      rw [hf xs hl, outs_immA, if_pos (by simp), hv xs z1]
      rfl
    · obtain ⟨s1, s2, hw, hv⟩ := wires_one hn hn2 ha
      refine ⟨.OP_IMM (.shift ⟨1, regOf a, v⟩ t), s1, s2, hw, fun xs z1 z2 pc z hl => ?_⟩
      rw [hf xs hl, outs_immS, if_pos (by simp), hv xs z1]
      rfl
  · refine ⟨.LUI ⟨1, v⟩, _, _, (wires_fst hn2 hn).1, fun xs z1 z2 pc z hl => ?_⟩
    rw [hf xs hl, outs_lui, if_pos (by simp)]

theorem inst_accepts {opts : Fields} (ho : opts.toList.Perm options) (i : Inst) : RHas (instT opts) (rawOf (instT opts) (instVal i)) ∧
    Accepts (instT opts) (rawCode (instT opts) (rawOf (instT opts) (instVal i))) := by
  obtain ⟨h1, h2⟩ := C38_rawOf (instT opts) (instVal i) (inst_wf ho) (inst_has ho i)
  rw [h2]
  exact ⟨h1, Acc.accepts_of_reads _ _ _ (encode_spec _ (inst_wf ho) _ (inst_has ho i)).2⟩

theorem can_iff {opts : Fields} (ho : opts.toList.Perm options) {n : Nat} (hn : 0 < n) {f : List Word → Word} :
    CanComputeAccepted (WIr.wordFn 32 f) peFn (instT opts) (wordFields 32 1 n) (.cons 0 (.bv 0 32) .nil) dIn dOut ↔ Fits n f := by
  constructor
  · rintro ⟨r, src, out, _, _, h⟩
    obtain ⟨h1, h2⟩ := does_of h
    exact fits_of hn h1 h2
  · intro h
    obtain ⟨i, s1, s2, h1, h2⟩ := of_fits hn h
    obtain ⟨a, b⟩ := inst_accepts ho i
    exact ⟨_, _, _, a, b, of_does h1 (by rw [inst_raw ho]; exact h2)⟩

/-! ## theorems -/

/-- C66: with an instruction of the ISA, for any state of the caches of validators and any order of the options of `Inst`, the simulator of the SMT family, reading the bits of the
instruction, computes what it computes on the instruction. -/
theorem C66_agree (P : Process) (opts : Fields) (ho : opts.toList.Perm options) (i : Inst) (pc rs1 rs2 rd : Word) :
    ∃ x, AV.new P.asm (instT opts) (.raw (instVal i)) = .ok x ∧ smtCall P.asm x pc rs1 rs2 rd = RV.mappable i pc rs1 rs2 rd := by
  have hh := inst_has ho i
  obtain ⟨h1, h2⟩ := C38_rawOf (instT opts) (instVal i) (inst_wf ho) hh
  refine ⟨_, new_raw P (inst_wf ho) hh, ?_⟩
  have := call_of P ho h1 pc rs1 rs2 rd
  rw [h2, inst_raw ho] at this
  exact this

/-- C66: the mapper finds an instruction and wires for exactly the functions of words that one instruction computes, and the rule is correct; otherwise it returns None.  For any order of
the options of `Inst`, any encoding of formulas and any sound and complete solver. -/
theorem C66_mapped (P : Process) (hP : MildProcess P) (opts : Fields) (ho : opts.toList.Perm options) (enc : IEnc) (n : Nat) (hn : 0 < n) (f : List Word → Word)
    (solve : (MAsg Nat → Prop) → Option (MAsg Nat)) (hsat : ∀ φ a, solve φ = some a → φ a) (hcomp : ∀ φ a, φ a → ∃ a', solve φ = some a') (a0 : MAsg Nat) :
    (Fits n f → ∃ r, mapSolve P.asm (problem P.asm opts enc n f) solve a0 = .ok (some r) ∧ IsMapping P.asm (problem P.asm opts enc n f) r ∧
      RuleRight P (wordIr 32 n f) (pe P.asm opts) r) ∧
    (¬ Fits n f → mapSolve P.asm (problem P.asm opts enc n f) solve a0 = .ok none) := by
  have key := C33_instruction_known P (problem P.asm opts enc n f) (WIr.wordFn 32 f) peFn (fun _ => [1]) 0 (instT opts) (wordFields 32 1 n) (.cons 0 (.bv 0 32) .nil) dIn dOut
    (shape P.asm opts enc n f) (setup P ho enc hn f) (pe_total P ho) (known hP ho) (hP.leaves (inst_wf ho) (inst_mild ho)) solve hsat hcomp a0
  rw [can_iff ho hn] at key
  exact right_of (setup P ho enc hn f) key

/-- C66: the same with `simple_formula=True`. -/
theorem C66_mapped_simple (P : Process) (hP : MildProcess P) (opts : Fields) (ho : opts.toList.Perm options) (enc : IEnc) (n : Nat) (hn : 0 < n) (f : List Word → Word)
    (solve : (SAsg Nat → Prop) → Option (SAsg Nat)) (hsat : ∀ φ a, solve φ = some a → φ a) (hcomp : ∀ φ a, φ a → ∃ a', solve φ = some a') (a0 : SAsg Nat) :
    (Fits n f → ∃ r, simpleSolve P.asm (problem P.asm opts enc n f) solve a0 = .ok (some r) ∧ IsMapping P.asm (problem P.asm opts enc n f) r ∧
      RuleRight P (wordIr 32 n f) (pe P.asm opts) r) ∧
    (¬ Fits n f → simpleSolve P.asm (problem P.asm opts enc n f) solve a0 = .ok none) := by
  have key := C55_instruction_known_plain P (problem P.asm opts enc n f) (WIr.wordFn 32 f) peFn (fun _ => [1]) 0 (instT opts) (wordFields 32 1 n) (.cons 0 (.bv 0 32) .nil) dIn dOut
    (shape P.asm opts enc n f) (setup P ho enc hn f) (pe_total P ho) (pe_boxes P.asm opts) (known hP ho) (hP.leaves (inst_wf ho) (inst_mild ho)) solve hsat hcomp a0
  rw [can_iff ho hn] at key
  exact right_of (setup P ho enc hn f) key

/-- The options in the order of their definitions. -/
def inOrder : Fields :=
  .cons oOP opT (.cons oIMM immT (.cons oLUI luiT (.cons oAUIPC auipcT (.cons oJAL jalT (.cons oJALR jalrT (.cons oBranch brT (.cons oLoad ldT (.cons oStore stT .nil))))))))

/-- Hypotheses: the empty process, and the options in order. -/
example : MildProcess ⟨fun _ => []⟩ ∧ inOrder.toList.Perm options := ⟨(by intro n t h; cases h), List.Perm.refl _⟩

theorem add_fits : Fits 2 (fun xs => xs[0]?.getD 0 + xs[1]?.getD 0) := by
  refine ⟨by decide, .inl ⟨.arith .ADD, .input 0, .input 1, ⟨.inr ⟨0, by decide, rfl⟩, .inr (.inl ⟨1, by decide, rfl, by simp⟩)⟩, fun xs _ => ?_⟩⟩
  apply BitVec.eq_of_toNat_eq
  simp [result, Operand.val]

/-- C66: the test of the repository: `i32_add` is found with both formulas, for every solver. -/
theorem C66_test_riscv (P : Process) (hP : MildProcess P) (opts : Fields) (ho : opts.toList.Perm options) (enc : IEnc) :
    let add (xs : List Word) : Word := xs[0]?.getD 0 + xs[1]?.getD 0
    (∀ (solve : (MAsg Nat → Prop) → Option (MAsg Nat)), (∀ φ a, solve φ = some a → φ a) → (∀ φ a, φ a → ∃ a', solve φ = some a') → ∀ a0,
      ∃ r, mapSolve P.asm (problem P.asm opts enc 2 add) solve a0 = .ok (some r) ∧ RuleRight P (wordIr 32 2 add) (pe P.asm opts) r) ∧
    (∀ (solve : (SAsg Nat → Prop) → Option (SAsg Nat)), (∀ φ a, solve φ = some a → φ a) → (∀ φ a, φ a → ∃ a', solve φ = some a') → ∀ a0,
      ∃ r, simpleSolve P.asm (problem P.asm opts enc 2 add) solve a0 = .ok (some r) ∧ RuleRight P (wordIr 32 2 add) (pe P.asm opts) r) := by
  refine ⟨fun solve h1 h2 a0 => ?_, fun solve h1 h2 a0 => ?_⟩
  · obtain ⟨r, a, _, b⟩ := (C66_mapped P hP opts ho enc 2 (by decide) _ solve h1 h2 a0).1 add_fits
    exact ⟨r, a, b⟩
  · obtain ⟨r, a, _, b⟩ := (C66_mapped_simple P hP opts ho enc 2 (by decide) _ solve h1 h2 a0).1 add_fits
    exact ⟨r, a, b⟩

/-! ## what subtracting an immediate can do -/

theorem result_zero (op : AluInst) (b : Word) : result op 0 b = 0 ∨ result op 0 b = 1 ∨ result op 0 b = b ∨ op = .arith .SUB ∧ result op 0 b = 0 - b := by
  cases op with
  | arith t =>
    cases t with
    | ADD =>
      refine .inr (.inr (.inl ?_))
      apply BitVec.eq_of_toNat_eq
      simp [result]
    | SUB =>
      refine .inr (.inr (.inr ⟨rfl, ?_⟩))
      rw [← alu_result]
      rfl
    | SLT => by_cases h : (0 : Word).toInt < b.toInt <;> simp only [result, h, if_true, if_false, true_or, or_true]
    | SLTU => by_cases h : (0 : Word).toNat < b.toNat <;> simp only [result, h, if_true, if_false, true_or, or_true]
    | AND => exact .inl (BitVec.zero_and)
    | OR => exact .inr (.inr (.inl (BitVec.zero_or)))
    | XOR => exact .inr (.inr (.inl (BitVec.zero_xor)))
  | shift t =>
    left
    cases t <;> simp [result]

theorem imm_small (v : BitVec 12) (c : Nat) (h1 : 2048 ≤ c) (h2 : c ≤ 2049) : BitVec.ofInt 32 v.toInt ≠ BitVec.ofNat 32 c := by
  intro h
  have := congrArg BitVec.toInt h
  have b1 := BitVec.toInt_lt (x := v)
  have b2 := BitVec.le_toInt (x := v)
  have hc : c = 2048 ∨ c = 2049 := by omega
  rw [BitVec.toInt_ofInt, Int.bmod_def] at this
  rcases hc with rfl | rfl
  · have e : (BitVec.ofNat 32 2048).toInt = 2048 := by decide
    rw [e] at this
    omega
  · have e : (BitVec.ofNat 32 2049).toInt = 2049 := by decide
    rw [e] at this
    omega

/-- What an instruction computes from zeros. -/
theorem outs_zero {i : Inst} {c : Nat} (h1 : 2048 ≤ c) (h2 : c ≤ 2049) (h : (outs i 0 0 0 0).2 = BitVec.ofNat 32 c) :
    ∃ d, i = .OP_IMM (.arith d .SUB) ∧ BitVec.ofInt 32 d.imm.toInt = 0 - BitVec.ofNat 32 c := by
  have hc : c = 2048 ∨ c = 2049 := by omega
  have n0 : (0 : Word) ≠ BitVec.ofNat 32 c := by rcases hc with rfl | rfl <;> decide
  have n1 : (1 : Word) ≠ BitVec.ofNat 32 c := by rcases hc with rfl | rfl <;> decide
  have n4 : (0 : Word) + 4 ≠ BitVec.ofNat 32 c := by rcases hc with rfl | rfl <;> decide
  have hu : ∀ v : BitVec 20, BitVec.ofNat 32 (v.toNat * 4096) ≠ BitVec.ofNat 32 c := by
    intro v e
    have e := congrArg BitVec.toNat e
    simp only [BitVec.toNat_ofNat] at e
    have := v.isLt
    omega
  have if0 : ∀ r : Idx, (if r ≠ 0 then (0 : Word) else 0) = 0 := by intro r; split <;> rfl
  cases i with
  | OP d t =>
    rw [outs_op, if0, if0] at h
    split at h
    · rcases result_zero t 0 with e | e | e | ⟨_, e⟩ <;> rw [e] at h
      · exact absurd h n0
      · exact absurd h n1
      · exact absurd h n0
      · exact absurd h n0
    · exact absurd h n0
  | OP_IMM o =>
    cases o with
    | arith d t =>
      rw [outs_immA, if0] at h
      split at h
      · rcases result_zero (.arith t) (BitVec.ofInt 32 d.imm.toInt) with e | e | e | ⟨ht, e⟩ <;> rw [e] at h
        · exact absurd h n0
        · exact absurd h n1
        · exact absurd h (imm_small d.imm c h1 h2)
        · cases ht
          refine ⟨d, rfl, ?_⟩
          rw [← h]
          simp
      · exact absurd h n0
    | shift d t =>
      rw [outs_immS, if0] at h
      split at h
      · have e : result (.shift t) 0 (BitVec.ofNat 32 d.imm.toNat) = 0 := by cases t <;> simp [result]
        rw [e] at h
        exact absurd h n0
      · exact absurd h n0
  | LUI d =>
    rw [outs_lui] at h
    split at h
    · exact absurd h (hu _)
    · exact absurd h n0
  | AUIPC d =>
    rw [outs_auipc, RV.upper] at h
    split at h
    · exact absurd ((BitVec.zero_add _).symm.trans h) (hu _)
    · exact absurd h n0
  | JAL d =>
    rw [outs_jal] at h
    split at h
    · exact absurd h n4
    · exact absurd h n0
  | JALR d =>
    rw [outs_jalr] at h
    split at h
    · exact absurd h n4
    · exact absurd h n0
  | Branch d t =>
    rw [outs_branch] at h
    exact absurd h n0
  | Load d t => exact absurd h n0
  | Store d t => exact absurd h n0

/-- Adding 2048. -/
def plus2048 (xs : List Word) : Word := xs[0]?.getD 0 + 2048

theorem plus2048_fits : Fits 1 plus2048 := by
  refine ⟨by decide, .inl ⟨.arith .SUB, .input 0, .imm12 2048, ⟨.inr ⟨0, by decide, rfl⟩, .inr (.inr (.inl ⟨_, _, rfl, rfl⟩))⟩, fun xs _ => ?_⟩⟩
  rw [← alu_result]
  have : ((Operand.imm12 2048).val xs) = -(2048 : Word) := by
    show BitVec.ofInt 32 (2048 : BitVec 12).toInt = _
    decide
  rw [this]
  show plus2048 xs = xs[0]?.getD 0 - -(2048 : Word)
  rw [BitVec.sub_eq_add_neg, BitVec.neg_neg]
  rfl

theorem plus2049_unfit : ¬ Fits 1 (fun xs => xs[0]?.getD 0 + 2049) := by
  intro h
  obtain ⟨i, s1, s2, hw, hd⟩ := of_fits (by decide) h
  have e := hd [0] 0 0 0 0 rfl
  have hp : ∀ s : Option Nat, port s [0] 0 = (0 : Word) := by
    intro s
    cases s with
    | none => rfl
    | some q =>
      show ([(0 : Word)][q - 1]?).getD 0 = 0
      cases q - 1 <;> rfl
  rw [hp, hp] at e
  obtain ⟨d, _, e'⟩ := outs_zero (c := 2049) (by decide) (by decide) e.symm
  have := congrArg BitVec.toInt e'
  have b1 := BitVec.toInt_lt (x := d.imm)
  have b2 := BitVec.le_toInt (x := d.imm)
  have ec : ((0 : Word) - BitVec.ofNat 32 2049).toInt = -2049 := by decide
  rw [ec, BitVec.toInt_ofInt, Int.bmod_def] at this
  omega

/-- The mapper does not add 2049, nor map a function of three words. -/
example (P : Process) (hP : MildProcess P) (opts : Fields) (ho : opts.toList.Perm options) (enc : IEnc) (f : List Word → Word) (solve : (MAsg Nat → Prop) → Option (MAsg Nat))
    (hsat : ∀ φ a, solve φ = some a → φ a) (hcomp : ∀ φ a, φ a → ∃ a', solve φ = some a') (a0 : MAsg Nat) :
    mapSolve P.asm (problem P.asm opts enc 1 (fun xs => xs[0]?.getD 0 + 2049)) solve a0 = .ok none ∧ mapSolve P.asm (problem P.asm opts enc 3 f) solve a0 = .ok none :=
  ⟨(C66_mapped P hP opts ho enc 1 (by decide) _ solve hsat hcomp a0).2 plus2049_unfit, (C66_mapped P hP opts ho enc 3 (by decide) f solve hsat hcomp a0).2 (fun h => absurd h.1 (by decide))⟩

/-- C66 violated: sim.py asserts that an immediate is never subtracted ("can always do ADDI -imm"), but the SMT family drops assertions.  The mapper maps `x + 2048`, whatever the solver, and
every instruction that computes it, with the input in either register, subtracts the immediate -2048: the Python simulator raises AssertionError on it in every state. -/
theorem C66_violated_subi (P : Process) (hP : MildProcess P) (opts : Fields) (ho : opts.toList.Perm options) (enc : IEnc)
    (solve : (MAsg Nat → Prop) → Option (MAsg Nat)) (hsat : ∀ φ a, solve φ = some a → φ a) (hcomp : ∀ φ a, φ a → ∃ a', solve φ = some a') (a0 : MAsg Nat) :
    (∃ r, mapSolve P.asm (problem P.asm opts enc 1 plus2048) solve a0 = .ok (some r)) ∧
    ∀ i : Inst, (∀ pc x y z, ∃ p, RV.mappable i pc x y z = .ok (p, x + 2048)) ∨ (∀ pc x y z, ∃ p, RV.mappable i pc y x z = .ok (p, x + 2048)) →
      (∃ d, i = .OP_IMM (.arith d .SUB) ∧ d.imm.toInt = -2048) ∧ ∀ rf pc, RV.pyCall rf i pc = .error .assertionError := by
  refine ⟨?_, fun i h => ?_⟩
  · obtain ⟨r, h, _⟩ := (C66_mapped P hP opts ho enc 1 (by decide) _ solve hsat hcomp a0).1 plus2048_fits
    exact ⟨r, h⟩
  · have h0 : (outs i 0 0 0 0).2 = BitVec.ofNat 32 2048 := by
      rcases h with h | h
      · obtain ⟨p, e⟩ := h 0 0 0 0
        rw [mappable_outs] at e
        rw [Except.ok.inj e]
        rfl
      · obtain ⟨p, e⟩ := h 0 0 0 0
        rw [mappable_outs] at e
        rw [Except.ok.inj e]
        rfl
    obtain ⟨d, rfl, hd⟩ := outs_zero (by decide) (by decide) h0
    refine ⟨⟨d, rfl, ?_⟩, fun rf pc => rfl⟩
    have := congrArg BitVec.toInt hd
    have b1 := BitVec.toInt_lt (x := d.imm)
    have b2 := BitVec.le_toInt (x := d.imm)
    have ec : ((0 : Word) - BitVec.ofNat 32 2048).toInt = -2048 := by decide
    rw [ec, BitVec.toInt_ofInt, Int.bmod_def] at this
    omega

end Peak.RMap
