import Verif.Spec.RiscVMMap
import Verif.Lemmas.RiscVMMapPe
import Verif.Props.RiscVMap
import Mathlib.Data.Fintype.Basic
/-!
# C84: mapping to the RISC-V simulator with multiplication and division
-/

namespace Peak.RMM
open Peak Peak.Spec
open Peak.RV (Word Idx SmtRF smtFile sext zext bvshl bvlshr bvashr bitWord Inst ArithInst ShiftInst BranchInst LoadInst AluInst InstM MulDivInst smtOps isaTaken isaMulDiv)
open Peak.RMap (kRd kRs1 kRs2 kImm kData kTag kArith kShift oOP oIMM oLUI oAUIPC oJAL oJALR oBranch oLoad oStore arithT shiftT loadT branchT rT iT isT sT uT bT jT immAT immST immT luiT auipcT
  jalT jalrT brT ldT stT bvVal arithMem shiftMem loadMem branchMem hasAt_of rawAt_of bv_raw bv_has arith_raw shift_raw branch_raw load_raw arith_hasV shift_hasV branch_hasV load_hasV imm_mem imm_wf
  raw_prod raw_cons raw_nil port envOf row_get row_len row_env mod32 Operand regOf opd opd_val opd_cases)

/-! ## instructions as values -/

theorem muldiv_raw (t : MulDivInst) : ∃ c, rawOf mulDivT (.enum (mulDivMem t)) = .leaf c ∧ mulDivOf c = t :=
  ⟨encode mulDivT (.enum (mulDivMem t)), rfl, by cases t <;> rfl⟩
theorem muldiv_hasV (t : MulDivInst) : mulDivT.Has (.enum (mulDivMem t)) := by cases t <;> simp [mulDivT, Ty.Has, mulDivMem]

theorem alu_hasV (t : AluInst) : aluT.Has (RMap.aluVal t) := by
  cases t with
  | arith t => exact hasAt_of alu_wf.2.1 alu_mem.1 (arith_hasV t)
  | shift t => exact hasAt_of alu_wf.2.1 alu_mem.2.1 (shift_hasV t)

theorem alu_rawV (t : AluInst) : ∃ k c, rawOf aluT (RMap.aluVal t) = .sum k (.leaf c) ∧ aluOf k c = .base t := by
  cases t with
  | arith t =>
    obtain ⟨c, h, e⟩ := arith_raw t
    exact ⟨kArith, c, congrArg (RVal.sum kArith) ((rawAt_of alu_wf.2.1 alu_mem.1).trans h), by simp [aluOf, e]⟩
  | shift t =>
    obtain ⟨c, h, e⟩ := shift_raw t
    exact ⟨kShift, c, congrArg (RVal.sum kShift) ((rawAt_of alu_wf.2.1 alu_mem.2.1).trans h), by simp [aluOf, e, kShift, kArith]⟩

theorem md_hasV (t : MulDivInst) : aluT.Has (.sum kMulDiv (.enum (mulDivMem t))) := hasAt_of alu_wf.2.1 alu_mem.2.2 (muldiv_hasV t)

theorem md_rawV (t : MulDivInst) : ∃ c, rawOf aluT (.sum kMulDiv (.enum (mulDivMem t))) = .sum kMulDiv (.leaf c) ∧ aluOf kMulDiv c = .muldiv t := by
  obtain ⟨c, h, e⟩ := muldiv_raw t
  exact ⟨c, congrArg (RVal.sum kMulDiv) ((rawAt_of alu_wf.2.1 alu_mem.2.2).trans h), by simp [aluOf, e, kShift, kArith, kMulDiv]⟩

theorem option_mem : (oOP, opT) ∈ options ∧ (oIMM, immT) ∈ options ∧ (oLUI, luiT) ∈ options ∧ (oAUIPC, auipcT) ∈ options ∧ (oJAL, jalT) ∈ options ∧
    (oJALR, jalrT) ∈ options ∧ (oBranch, brT) ∈ options ∧ (oLoad, ldT) ∈ options ∧ (oStore, stT) ∈ options := by
  simp [options]

/-- An instruction is a value of the type. -/
theorem inst_has {opts : Fields} (ho : opts.toList.Perm options) (i : InstM) : (instT opts).Has (instVal i) := by
  have hn := (inst_wf ho).2.1
  obtain ⟨m1, m2, m3, m4, m5, m6, m7, m8, m9⟩ := option_mem
  cases i with
  | muldiv d t => exact hasAt_of hn (ho.mem_iff.mpr m1) ⟨⟨bv_has _, bv_has _, bv_has _, trivial⟩, md_hasV t, trivial⟩
  | base i =>
    cases i with
    | OP d t => exact hasAt_of hn (ho.mem_iff.mpr m1) ⟨⟨bv_has _, bv_has _, bv_has _, trivial⟩, alu_hasV t, trivial⟩
    | OP_IMM o =>
      cases o with
      | arith d t => exact hasAt_of hn (ho.mem_iff.mpr m2) (hasAt_of imm_wf.2.1 imm_mem.1 ⟨⟨bv_has _, bv_has _, bv_has _, trivial⟩, arith_hasV t, trivial⟩)
      | shift d t => exact hasAt_of hn (ho.mem_iff.mpr m2) (hasAt_of imm_wf.2.1 imm_mem.2 ⟨⟨bv_has _, bv_has _, bv_has _, trivial⟩, shift_hasV t, trivial⟩)
    | LUI d => exact hasAt_of hn (ho.mem_iff.mpr m3) ⟨⟨bv_has _, bv_has _, trivial⟩, trivial⟩
    | AUIPC d => exact hasAt_of hn (ho.mem_iff.mpr m4) ⟨⟨bv_has _, bv_has _, trivial⟩, trivial⟩
    | JAL d => exact hasAt_of hn (ho.mem_iff.mpr m5) ⟨⟨bv_has _, bv_has _, trivial⟩, trivial⟩
    | JALR d => exact hasAt_of hn (ho.mem_iff.mpr m6) ⟨⟨bv_has _, bv_has _, bv_has _, trivial⟩, trivial⟩
    | Branch d t => exact hasAt_of hn (ho.mem_iff.mpr m7) ⟨⟨bv_has _, bv_has _, bv_has _, trivial⟩, branch_hasV t, trivial⟩
    | Load d t => exact hasAt_of hn (ho.mem_iff.mpr m8) ⟨⟨bv_has _, bv_has _, bv_has _, trivial⟩, load_hasV t, trivial⟩
    | Store d t => exact hasAt_of hn (ho.mem_iff.mpr m9) ⟨⟨bv_has _, bv_has _, bv_has _, trivial⟩, load_hasV t, trivial⟩

/-- Its bits decode to it. -/
theorem inst_raw {opts : Fields} (ho : opts.toList.Perm options) (i : InstM) : ofRaw (rawOf (instT opts) (instVal i)) = i := by
  have hn := (inst_wf ho).2.1
  obtain ⟨m1, m2, m3, m4, m5, m6, m7, m8, m9⟩ := option_mem
  cases i with
  | muldiv d t =>
    obtain ⟨c, h, e⟩ := md_rawV t
    have h0 : rawOf (instT opts) (instVal (.muldiv d t)) = .sum oOP (.prod [.prod [.leaf d.rd.toNat, .leaf d.rs1.toNat, .leaf d.rs2.toNat], .sum kMulDiv (.leaf c)]) := by
      refine congrArg (RVal.sum oOP) ((rawAt_of hn (ho.mem_iff.mpr m1)).trans ?_)
      simp only [opT, rT, raw_prod, raw_cons, raw_nil, bv_raw, h]
    rw [h0]
    simp [ofRaw, oOP, e]
  | base i =>
    cases i with
    | OP d t =>
      obtain ⟨k, c, h, e⟩ := alu_rawV t
      have h0 : rawOf (instT opts) (instVal (.base (.OP d t))) = .sum oOP (.prod [.prod [.leaf d.rd.toNat, .leaf d.rs1.toNat, .leaf d.rs2.toNat], .sum k (.leaf c)]) := by
        refine congrArg (RVal.sum oOP) ((rawAt_of hn (ho.mem_iff.mpr m1)).trans ?_)
        simp only [opT, rT, raw_prod, raw_cons, raw_nil, bv_raw, h]
      rw [h0]
      simp [ofRaw, oOP, oIMM, oLUI, oAUIPC, oJAL, oJALR, oBranch, oLoad, oStore, kArith, kShift, e]
    | OP_IMM o =>
      cases o with
      | arith d t =>
        obtain ⟨c, h, e⟩ := arith_raw t
        have h0 : rawOf (instT opts) (instVal (.base (.OP_IMM (.arith d t)))) = .sum oIMM (.sum kArith (.prod [.prod [.leaf d.rd.toNat, .leaf d.rs1.toNat, .leaf d.imm.toNat], .leaf c])) := by
          refine congrArg (RVal.sum oIMM) ((rawAt_of hn (ho.mem_iff.mpr m2)).trans ?_)
          refine congrArg (RVal.sum kArith) ((rawAt_of imm_wf.2.1 imm_mem.1).trans ?_)
          simp only [immAT, iT, raw_prod, raw_cons, raw_nil, bv_raw, h]
        rw [h0]
        simp [ofRaw, oOP, oIMM, oLUI, oAUIPC, oJAL, oJALR, oBranch, oLoad, oStore, kArith, kShift, e]
      | shift d t =>
        obtain ⟨c, h, e⟩ := shift_raw t
        have h0 : rawOf (instT opts) (instVal (.base (.OP_IMM (.shift d t)))) = .sum oIMM (.sum kShift (.prod [.prod [.leaf d.rd.toNat, .leaf d.rs1.toNat, .leaf d.imm.toNat], .leaf c])) := by
          refine congrArg (RVal.sum oIMM) ((rawAt_of hn (ho.mem_iff.mpr m2)).trans ?_)
          refine congrArg (RVal.sum kShift) ((rawAt_of imm_wf.2.1 imm_mem.2).trans ?_)
          simp only [immST, isT, raw_prod, raw_cons, raw_nil, bv_raw, h]
        rw [h0]
        simp [ofRaw, oOP, oIMM, oLUI, oAUIPC, oJAL, oJALR, oBranch, oLoad, oStore, kArith, kShift, e]
    | LUI d =>
      have h0 : rawOf (instT opts) (instVal (.base (.LUI d))) = .sum oLUI (.prod [.prod [.leaf d.rd.toNat, .leaf d.imm.toNat]]) := by
        refine congrArg (RVal.sum oLUI) ((rawAt_of hn (ho.mem_iff.mpr m3)).trans ?_)
        simp only [luiT, uT, raw_prod, raw_cons, raw_nil, bv_raw]
      rw [h0]
      simp [ofRaw, oOP, oIMM, oLUI, oAUIPC, oJAL, oJALR, oBranch, oLoad, oStore, kArith, kShift]
    | AUIPC d =>
      have h0 : rawOf (instT opts) (instVal (.base (.AUIPC d))) = .sum oAUIPC (.prod [.prod [.leaf d.rd.toNat, .leaf d.imm.toNat]]) := by
        refine congrArg (RVal.sum oAUIPC) ((rawAt_of hn (ho.mem_iff.mpr m4)).trans ?_)
        simp only [auipcT, uT, raw_prod, raw_cons, raw_nil, bv_raw]
      rw [h0]
      simp [ofRaw, oOP, oIMM, oLUI, oAUIPC, oJAL, oJALR, oBranch, oLoad, oStore, kArith, kShift]
    | JAL d =>
      have h0 : rawOf (instT opts) (instVal (.base (.JAL d))) = .sum oJAL (.prod [.prod [.leaf d.rd.toNat, .leaf d.imm.toNat]]) := by
        refine congrArg (RVal.sum oJAL) ((rawAt_of hn (ho.mem_iff.mpr m5)).trans ?_)
        simp only [jalT, jT, raw_prod, raw_cons, raw_nil, bv_raw]
      rw [h0]
      simp [ofRaw, oOP, oIMM, oLUI, oAUIPC, oJAL, oJALR, oBranch, oLoad, oStore, kArith, kShift]
    | JALR d =>
      have h0 : rawOf (instT opts) (instVal (.base (.JALR d))) = .sum oJALR (.prod [.prod [.leaf d.rd.toNat, .leaf d.rs1.toNat, .leaf d.imm.toNat]]) := by
        refine congrArg (RVal.sum oJALR) ((rawAt_of hn (ho.mem_iff.mpr m6)).trans ?_)
        simp only [jalrT, iT, raw_prod, raw_cons, raw_nil, bv_raw]
      rw [h0]
      simp [ofRaw, oOP, oIMM, oLUI, oAUIPC, oJAL, oJALR, oBranch, oLoad, oStore, kArith, kShift]
    | Branch d t =>
      obtain ⟨c, h, e⟩ := branch_raw t
      have h0 : rawOf (instT opts) (instVal (.base (.Branch d t))) = .sum oBranch (.prod [.prod [.leaf d.rs1.toNat, .leaf d.rs2.toNat, .leaf d.imm.toNat], .leaf c]) := by
        refine congrArg (RVal.sum oBranch) ((rawAt_of hn (ho.mem_iff.mpr m7)).trans ?_)
        simp only [brT, bT, raw_prod, raw_cons, raw_nil, bv_raw, h]
      rw [h0]
      simp [ofRaw, oOP, oIMM, oLUI, oAUIPC, oJAL, oJALR, oBranch, oLoad, oStore, kArith, kShift, e]
    | Load d t =>
      obtain ⟨c, h, e⟩ := load_raw t
      have h0 : rawOf (instT opts) (instVal (.base (.Load d t))) = .sum oLoad (.prod [.prod [.leaf d.rd.toNat, .leaf d.rs1.toNat, .leaf d.imm.toNat], .leaf c]) := by
        refine congrArg (RVal.sum oLoad) ((rawAt_of hn (ho.mem_iff.mpr m8)).trans ?_)
        simp only [ldT, iT, raw_prod, raw_cons, raw_nil, bv_raw, h]
      rw [h0]
      simp [ofRaw, oOP, oIMM, oLUI, oAUIPC, oJAL, oJALR, oBranch, oLoad, oStore, kArith, kShift, e]
    | Store d t =>
      obtain ⟨c, h, e⟩ := load_raw t
      have h0 : rawOf (instT opts) (instVal (.base (.Store d t))) = .sum oStore (.prod [.prod [.leaf d.rs1.toNat, .leaf d.rs2.toNat, .leaf d.imm.toNat], .leaf c]) := by
        refine congrArg (RVal.sum oStore) ((rawAt_of hn (ho.mem_iff.mpr m9)).trans ?_)
        simp only [stT, sT, raw_prod, raw_cons, raw_nil, bv_raw, h]
      rw [h0]
      simp [ofRaw, oOP, oIMM, oLUI, oAUIPC, oJAL, oJALR, oBranch, oLoad, oStore, kArith, kShift, e]

/-! ## what instructions compute -/

theorem muldiv_result (t : MulDivInst) (a b : Word) : RV.mulDiv smtOps t a b = (Op.muldiv t).result a b := by
  by_cases h : t = .DIV ∧ b = 0 ∧ a.toInt < 0
  · obtain ⟨rfl, rfl, ha⟩ := h
    rw [(RV.C59_violated_smt a ha).1]
    exact (if_pos ⟨rfl, ha⟩).symm
  · rw [RV.mulDiv_smt]
    · cases t <;> try rfl
      exact (if_neg (fun hh => h ⟨rfl, hh⟩)).symm
    · rintro rfl
      by_cases hb : b = 0
      · right
        by_contra hc
        exact h ⟨rfl, hb, by omega⟩
      · exact .inl (fun e => hb ((RV.toInt_zero_iff b).mp e))

theorem outs_base (i : Inst) (pc a b z : Word) : outs (.base i) pc a b z = RMap.outs i pc a b z := rfl

theorem outs_md (d : RV.R) (t : MulDivInst) (pc a b z : Word) :
    (outs (.muldiv d t) pc a b z).2 = if d.rd ≠ 0 then (Op.muldiv t).result (if d.rs1 ≠ 0 then a else 0) (if d.rs2 ≠ 0 then b else 0) else z := by
  rw [← muldiv_result]
  have : (outs (.muldiv d t) pc a b z).2 = if d.rd ≠ 0 then RV.mulDiv smtOps t (if d.rs1 ≠ 0 then a else 0) (if d.rs2 ≠ 0 then b else 0) &&& BitVec.ofInt 32 (-1) else z := rfl
  rw [this, RV.full_mask]

/-- The next address after an instruction that does not jump. -/
theorem next_plain (i : InstM) (h : match i with | .base (.JAL _) | .base (.JALR _) | .base (.Branch _ _) => False | _ => True) (pc a b z : Word) : (outs i pc a b z).1 = pc + 4 := by
  cases i with
  | muldiv d t => rfl
  | base i => cases i <;> first | rfl | exact h.elim | (rename_i o; cases o <;> rfl)

theorem next_jal (d : RV.J) (pc a b z : Word) : (outs (.base (.JAL d)) pc a b z).1 = BitVec.ofInt 32 (pc.toNat + 2 * d.imm.toInt) := by
  have : (outs (.base (.JAL d)) pc a b z).1 = (pc + bvshl (sext d.imm 12) 1) &&& BitVec.ofInt 32 (-1) := rfl
  rw [this, RV.full_mask, RV.twice d.imm 12 rfl, RV.add_imm]

theorem next_jalr (d : RV.I) (pc a b z : Word) :
    (outs (.base (.JALR d)) pc a b z).1 = BitVec.ofNat 32 (2 * ((BitVec.ofInt 32 ((if d.rs1 ≠ 0 then a else 0).toNat + d.imm.toInt)).toNat / 2)) := by
  have : (outs (.base (.JALR d)) pc a b z).1 = ((if d.rs1 ≠ 0 then a else 0) + sext d.imm 20) &&& ~~~1 := rfl
  rw [this, RV.even_mask, RV.add_imm, ← BitVec.ofInt_natCast]
  push_cast
  rfl

theorem next_branch (d : RV.B) (t : BranchInst) (pc a b z : Word) : (outs (.base (.Branch d t)) pc a b z).1 =
    if isaTaken t (if d.rs1 ≠ 0 then a else 0) (if d.rs2 ≠ 0 then b else 0) then BitVec.ofInt 32 (pc.toNat + 2 * d.imm.toInt) else BitVec.ofNat 32 (pc.toNat + 4) := by
  have hb : ∀ c t : Bool, c = t → (if c = true then pc + bvshl (sext d.imm 20) 1 else pc + 4) =
      if t = true then BitVec.ofInt 32 ((pc.toNat : Int) + 2 * d.imm.toInt) else BitVec.ofNat 32 (pc.toNat + 4) := by
    rintro c _ rfl
    rw [RV.twice d.imm 20 rfl, RV.add_imm, RV.add4]
  cases t
  · refine hb _ _ ?_
    show ((((_ ^^^ _ : Word) &&& BitVec.ofInt 32 (-1)) == 0) ^^ false) = _
    rw [RV.full_mask, RV.xor_beq]
    simp [isaTaken]
  · refine hb _ _ ?_
    show ((((_ ^^^ _ : Word) &&& BitVec.ofInt 32 (-1)) == 0) ^^ true) = _
    rw [RV.full_mask, RV.xor_beq]
    simp [isaTaken]
  · refine hb _ _ ?_
    show ((bitWord (BitVec.slt _ _) &&& BitVec.ofInt 32 (-1)).getLsbD 0 ^^ false) = _
    rw [RV.full_mask, RV.bit0_slt]
    simp [isaTaken]
  · refine hb _ _ ?_
    show ((bitWord (BitVec.ult _ _) &&& BitVec.ofInt 32 (-1)).getLsbD 0 ^^ false) = _
    rw [RV.full_mask, RV.bit0_ult]
    simp [isaTaken]
  · refine hb _ _ ?_
    show ((bitWord (BitVec.slt _ _) &&& BitVec.ofInt 32 (-1)).getLsbD 0 ^^ true) = _
    rw [RV.full_mask, RV.bit0_slt]
    rw [isaTaken, Bool.eq_iff_iff]
    simp only [Bool.bne_true, Bool.not_eq_true', decide_eq_false_iff_not, decide_eq_true_eq, not_lt]
  · refine hb _ _ ?_
    show ((bitWord (BitVec.ult _ _) &&& BitVec.ofInt 32 (-1)).getLsbD 0 ^^ true) = _
    rw [RV.full_mask, RV.bit0_ult]
    rw [isaTaken, Bool.eq_iff_iff]
    simp only [Bool.bne_true, Bool.not_eq_true', decide_eq_false_iff_not, decide_eq_true_eq, not_lt]

/-! ## wirings -/

/-- Words 1 to `n`, each in one of the places `pc`, `rs1` and `rs2`. -/
structure Wires (n : Nat) (s0 s1 s2 : Option Nat) : Prop where
  all : ∀ k, 1 ≤ k → k ≤ n → s0 = some k ∨ s1 = some k ∨ s2 = some k
  r0 : ∀ k, s0 = some k → 1 ≤ k ∧ k ≤ n ∧ s1 ≠ some k ∧ s2 ≠ some k
  r1 : ∀ k, s1 = some k → 1 ≤ k ∧ k ≤ n ∧ s2 ≠ some k
  r2 : ∀ k, s2 = some k → 1 ≤ k ∧ k ≤ n

theorem wires_le {n : Nat} {s0 s1 s2 : Option Nat} (h : Wires n s0 s1 s2) : n ≤ 3 := by
  by_contra hn
  have h1 := h.all 1 (by omega) (by omega)
  have h2 := h.all 2 (by omega) (by omega)
  have h3 := h.all 3 (by omega) (by omega)
  have h4 := h.all 4 (by omega) (by omega)
  rcases h1 with e1 | e1 | e1 <;> rcases h2 with e2 | e2 | e2 <;> rcases h3 with e3 | e3 | e3 <;> rcases h4 with e4 | e4 | e4 <;> simp_all

/-- Numbers of words in places, 0 for none: those present are distinct. -/
def Apart (n o0 o1 o2 : Fin 4) : Prop := (o0 ≠ 0 → o0 ≤ n ∧ o1 ≠ o0 ∧ o2 ≠ o0) ∧ (o1 ≠ 0 → o1 ≤ n ∧ o2 ≠ o1) ∧ (o2 ≠ 0 → o2 ≤ n)

instance (n o0 o1 o2 : Fin 4) : Decidable (Apart n o0 o1 o2) := by unfold Apart; infer_instance

/-- The numbers `s` complete the numbers `o`. -/
def Completes (n o0 o1 o2 s0 s1 s2 : Fin 4) : Prop :=
  (∀ k : Fin 4, k ≠ 0 → k ≤ n → s0 = k ∨ s1 = k ∨ s2 = k) ∧ Apart n s0 s1 s2 ∧ (o0 ≠ 0 → s0 = o0) ∧ (o1 ≠ 0 → s1 = o1) ∧ (o2 ≠ 0 → s2 = o2)

instance (n o0 o1 o2 s0 s1 s2 : Fin 4) : Decidable (Completes n o0 o1 o2 s0 s1 s2) := by unfold Completes; infer_instance

theorem completes : ∀ n o0 o1 o2 : Fin 4, Apart n o0 o1 o2 → ∃ s0 s1 s2, Completes n o0 o1 o2 s0 s1 s2 := by decide +kernel

/-- Distinct wires to some of the places can be completed. -/
theorem complete {n : Nat} (hn : n ≤ 3) (o0 o1 o2 : Option Nat) (h0 : ∀ k, o0 = some k → 1 ≤ k ∧ k ≤ n ∧ o1 ≠ some k ∧ o2 ≠ some k)
    (h1 : ∀ k, o1 = some k → 1 ≤ k ∧ k ≤ n ∧ o2 ≠ some k) (h2 : ∀ k, o2 = some k → 1 ≤ k ∧ k ≤ n) :
    ∃ s0 s1 s2, Wires n s0 s1 s2 ∧ (∀ k, o0 = some k → s0 = some k) ∧ (∀ k, o1 = some k → s1 = some k) ∧ ∀ k, o2 = some k → s2 = some k := by
  let code (o : Option Nat) (h : ∀ k, o = some k → k ≤ 3) : Fin 4 := ⟨o.getD 0, by cases o with | none => simp | some k => have := h k rfl; simp; omega⟩
  let dec (s : Fin 4) : Option Nat := if s = 0 then none else some s.val
  have dv : ∀ (s : Fin 4) (k : Nat), dec s = some k ↔ s ≠ 0 ∧ s.val = k := by
    intro s k
    simp only [dec]
    split <;> simp_all
  have c0 : ∀ k, o0 = some k → k ≤ 3 := fun k hk => by have := h0 k hk; omega
  have c1 : ∀ k, o1 = some k → k ≤ 3 := fun k hk => by have := h1 k hk; omega
  have c2 : ∀ k, o2 = some k → k ≤ 3 := fun k hk => by have := h2 k hk; omega
  have cn : ∀ (o : Option Nat) h, code o h ≠ 0 → ∃ k, o = some k ∧ (code o h).val = k := by
    intro o h hne
    cases o with
    | none => exact absurd rfl hne
    | some k => exact ⟨k, rfl, rfl⟩
  have ce : ∀ (o o' : Option Nat) h h', code o h ≠ 0 → code o' h' = code o h → ∃ k, o = some k ∧ o' = some k := by
    intro o o' h h' hne he
    obtain ⟨k, rfl, hk⟩ := cn o h hne
    obtain ⟨k', rfl, hk'⟩ := cn o' h' (by rw [he]; exact hne)
    have := congrArg Fin.val he
    rw [hk, hk'] at this
    exact ⟨k, rfl, by rw [this]⟩
  obtain ⟨s0, s1, s2, a, ⟨b0, b1, b2⟩, e0, e1, e2⟩ := completes ⟨n, by omega⟩ (code o0 c0) (code o1 c1) (code o2 c2) ⟨
    (fun h => by
      obtain ⟨k, hk, hv⟩ := cn _ c0 h
      have := h0 k hk
      refine ⟨Fin.le_def.mpr (by rw [hv]; exact this.2.1), fun he => ?_, fun he => ?_⟩
      · obtain ⟨k', e, e'⟩ := ce _ _ c0 c1 h he
        rw [hk] at e; cases e
        exact this.2.2.1 e'
      · obtain ⟨k', e, e'⟩ := ce _ _ c0 c2 h he
        rw [hk] at e; cases e
        exact this.2.2.2 e'),
    (fun h => by
      obtain ⟨k, hk, hv⟩ := cn _ c1 h
      have := h1 k hk
      refine ⟨Fin.le_def.mpr (by rw [hv]; exact this.2.1), fun he => ?_⟩
      obtain ⟨k', e, e'⟩ := ce _ _ c1 c2 h he
      rw [hk] at e; cases e
      exact this.2.2 e'),
    (fun h => by
      obtain ⟨k, hk, hv⟩ := cn _ c2 h
      exact Fin.le_def.mpr (by rw [hv]; exact (h2 k hk).2))⟩
  have nz : ∀ s : Fin 4, s ≠ 0 → 1 ≤ s.val := fun s h => by
    have : s.val ≠ 0 := fun e => h (Fin.ext e)
    omega
  have ext : ∀ (o : Option Nat) (h : ∀ k, o = some k → k ≤ 3) (s : Fin 4), (∀ k, o = some k → 1 ≤ k) → (code o h ≠ 0 → s = code o h) → ∀ k, o = some k → dec s = some k := by
    intro o h s hp he k hk
    subst hk
    have hne : code (some k) h ≠ 0 := fun e => by
      have := congrArg Fin.val e
      have hp := hp k rfl
      simp [code] at this
      omega
    rw [dv, he hne]
    exact ⟨hne, rfl⟩
  refine ⟨dec s0, dec s1, dec s2, ⟨?_, ?_, ?_, ?_⟩, ext o0 c0 s0 (fun k hk => (h0 k hk).1) e0, ext o1 c1 s1 (fun k hk => (h1 k hk).1) e1, ext o2 c2 s2 (fun k hk => (h2 k hk).1) e2⟩
  · intro k k1 k2
    have hk : (⟨k, by omega⟩ : Fin 4) ≠ 0 := fun e => by have := congrArg Fin.val e; simp at this; omega
    rcases a ⟨k, by omega⟩ hk (Fin.le_def.mpr k2) with e | e | e
    · exact .inl ((dv _ _).mpr ⟨by rw [e]; exact hk, by rw [e]⟩)
    · exact .inr (.inl ((dv _ _).mpr ⟨by rw [e]; exact hk, by rw [e]⟩))
    · exact .inr (.inr ((dv _ _).mpr ⟨by rw [e]; exact hk, by rw [e]⟩))
  · intro k hk
    obtain ⟨hne, rfl⟩ := (dv _ _).mp hk
    obtain ⟨l, n1, n2⟩ := b0 hne
    exact ⟨nz _ hne, Fin.le_def.mp l, fun e => n1 (Fin.ext ((dv _ _).mp e).2), fun e => n2 (Fin.ext ((dv _ _).mp e).2)⟩
  · intro k hk
    obtain ⟨hne, rfl⟩ := (dv _ _).mp hk
    obtain ⟨l, n1⟩ := b1 hne
    exact ⟨nz _ hne, Fin.le_def.mp l, fun e => n1 (Fin.ext ((dv _ _).mp e).2)⟩
  · intro k hk
    obtain ⟨hne, rfl⟩ := (dv _ _).mp hk
    exact ⟨nz _ hne, Fin.le_def.mp (b2 hne)⟩

/-- One of the two outputs: the next address or the register. -/
def sel (o : Bool) (p : Word × Word) : Word := if o then p.1 else p.2

/-- With this instruction, this output and these wires the simulator computes `f`. -/
def Does (n : Nat) (f : List Word → Word) (i : InstM) (o : Bool) (s0 s1 s2 : Option Nat) : Prop :=
  ∀ xs z0 z1 z2 z, xs.length = n → f xs = sel o (outs i (port s0 xs z0) (port s1 xs z1) (port s2 xs z2) z)

/-- The register of a base instruction. -/
theorem sel_base (i : Inst) (pc a b z : Word) : sel false (outs (.base i) pc a b z) = (RMap.outs i pc a b z).2 := rfl

theorem wires_of {n : Nat} {src : Key → Option Key} (h : IsAssignment dIn.toList (wordFields 32 1 n).toList src) :
    Wires n (src 1) (src 2) (src 3) ∧ src 4 = none := by
  have h4 : src 4 = none := by
    cases e : src 4 with
    | none => rfl
    | some q =>
      have := WIr.fields_mem.mp (h.typed 4 (.bv 1 32) q (by simp [dIn, Fields.toList]) e)
      simp at this
  have ne : ∀ {k : Key} {t : Ty}, (k, t) ∈ (wordFields 32 1 n).toList → ∀ {a b : Key}, a ∈ dIn.toList.map (·.1) → b ∈ dIn.toList.map (·.1) → src a = some k → src b = some k → a = b := by
    intro k t hk a b ha hb sa sb
    obtain ⟨c, _, _, hu⟩ := h.once k _ hk
    exact (hu a ha sa).trans (hu b hb sb).symm
  have m1 : (1 : Key) ∈ dIn.toList.map (·.1) := by simp [dIn, Fields.toList]
  have m2 : (2 : Key) ∈ dIn.toList.map (·.1) := by simp [dIn, Fields.toList]
  have m3 : (3 : Key) ∈ dIn.toList.map (·.1) := by simp [dIn, Fields.toList]
  refine ⟨⟨?_, ?_, ?_, ?_⟩, h4⟩
  · intro k hk1 hk2
    obtain ⟨a, ha, hs, _⟩ := h.once k (.bv 0 32) (WIr.fields_mem.mpr ⟨hk1, by omega, rfl⟩)
    simp only [dIn, Fields.toList, List.map_cons, List.map_nil, List.mem_cons, List.not_mem_nil, or_false] at ha
    rcases ha with rfl | rfl | rfl | rfl
    · exact .inl hs
    · exact .inr (.inl hs)
    · exact .inr (.inr hs)
    · rw [h4] at hs; cases hs
  · intro k hk
    have t := h.typed 1 (.bv 0 32) k (by simp [dIn, Fields.toList]) hk
    have := WIr.fields_mem.mp t
    exact ⟨this.1, by omega, fun e => absurd (ne t m1 m2 hk e) (by decide), fun e => absurd (ne t m1 m3 hk e) (by decide)⟩
  · intro k hk
    have t := h.typed 2 (.bv 0 32) k (by simp [dIn, Fields.toList]) hk
    have := WIr.fields_mem.mp t
    exact ⟨this.1, by omega, fun e => absurd (ne t m2 m3 hk e) (by decide)⟩
  · intro k hk
    have := WIr.fields_mem.mp (h.typed 3 (.bv 0 32) k (by simp [dIn, Fields.toList]) hk)
    exact ⟨this.1, by omega⟩

/-- The assignment with these wires. -/
def srcOf (s0 s1 s2 : Option Nat) : Key → Option Key := fun k => if k = (1 : Nat) then s0 else if k = (2 : Nat) then s1 else if k = (3 : Nat) then s2 else none

theorem of_wires {n : Nat} {s0 s1 s2 : Option Nat} (h : Wires n s0 s1 s2) : IsAssignment dIn.toList (wordFields 32 1 n).toList (srcOf s0 s1 s2) := by
  have e1 : srcOf s0 s1 s2 1 = s0 := rfl
  have e2 : srcOf s0 s1 s2 2 = s1 := rfl
  have e3 : srcOf s0 s1 s2 3 = s2 := rfl
  have e4 : srcOf s0 s1 s2 4 = none := rfl
  constructor
  · intro a t q ha hq
    simp only [dIn, Fields.toList, List.mem_cons, Prod.mk.injEq, List.not_mem_nil, or_false] at ha
    rw [WIr.fields_mem]
    rcases ha with ⟨rfl, rfl⟩ | ⟨rfl, rfl⟩ | ⟨rfl, rfl⟩ | ⟨rfl, rfl⟩
    · have := h.r0 q hq
      exact ⟨this.1, by omega, rfl⟩
    · have := h.r1 q hq
      exact ⟨this.1, by omega, rfl⟩
    · have := h.r2 q hq
      exact ⟨this.1, by omega, rfl⟩
    · cases hq
  · intro q t hq
    obtain ⟨l1, l2, _⟩ := WIr.fields_mem.mp hq
    have nx : ∀ b, b ∈ dIn.toList.map (·.1) → srcOf s0 s1 s2 b = some q → b = 1 ∧ s0 = some q ∨ b = 2 ∧ s1 = some q ∨ b = 3 ∧ s2 = some q := by
      intro b hb hbq
      simp only [dIn, Fields.toList, List.map_cons, List.map_nil, List.mem_cons, List.not_mem_nil, or_false] at hb
      rcases hb with rfl | rfl | rfl | rfl
      · exact .inl ⟨rfl, hbq⟩
      · exact .inr (.inl ⟨rfl, hbq⟩)
      · exact .inr (.inr ⟨rfl, hbq⟩)
      · cases hbq
    rcases h.all q l1 (by omega) with hs | hs | hs
    · refine ⟨1, by simp [dIn, Fields.toList], hs, fun b hb hbq => ?_⟩
      rcases nx b hb hbq with ⟨e, _⟩ | ⟨_, e⟩ | ⟨_, e⟩
      · exact e
      · exact absurd e (h.r0 q hs).2.2.1
      · exact absurd e (h.r0 q hs).2.2.2
    · refine ⟨2, by simp [dIn, Fields.toList], hs, fun b hb hbq => ?_⟩
      rcases nx b hb hbq with ⟨_, e⟩ | ⟨e, _⟩ | ⟨_, e⟩
      · exact absurd hs (h.r0 q e).2.2.1
      · exact e
      · exact absurd e (h.r1 q hs).2.2
    · refine ⟨3, by simp [dIn, Fields.toList], hs, fun b hb hbq => ?_⟩
      rcases nx b hb hbq with ⟨_, e⟩ | ⟨_, e⟩ | ⟨e, _⟩
      · exact absurd hs (h.r0 q e).2.2.2
      · exact absurd hs (h.r1 q e).2.2
      · exact e

/-- The place of an output. -/
def outKey (o : Bool) : Key := if o then (0 : Nat) else (1 : Nat)

/-- This output is the result. -/
def outOf (o : Bool) : Key → Option Key := fun k => if k = outKey o then some 0 else none

theorem of_out (o : Bool) : IsAssignment dOut.toList (Fields.cons 0 (.bv 0 32) .nil).toList (outOf o) := by
  constructor
  · intro a t q ha hq
    simp only [dOut, Fields.toList, List.mem_cons, Prod.mk.injEq, List.not_mem_nil, or_false] at ha
    rcases ha with ⟨rfl, rfl⟩ | ⟨rfl, rfl⟩ <;> cases o <;> cases hq <;> simp [Fields.toList]
  · intro q t hq
    simp only [Fields.toList, List.mem_singleton, Prod.mk.injEq] at hq
    rw [hq.1]
    refine ⟨outKey o, by cases o <;> simp [dOut, Fields.toList, outKey], if_pos rfl, fun b hb hbq => ?_⟩
    simp only [dOut, Fields.toList, List.map_cons, List.map_nil, List.mem_cons, List.not_mem_nil, or_false] at hb
    rcases hb with rfl | rfl <;> cases o <;> first | rfl | cases hbq

/-- The bits of an output. -/
theorem out_bits (o : Bool) (x y : Word) : prodBits dOut (.prod [.leaf x.toNat, .leaf y.toNat]) (outKey o) = (sel o (x, y)).toNat := by
  cases o <;> simp [prodBits, fieldBits, dOut, outKey, sel]

/-- What the mapper requires, in terms of instructions and wires. -/
theorem does_of {n : Nat} {f : List Word → Word} {r : RVal} {src out : Key → Option Key} (h : ComputesWith (WIr.wordFn 32 f) peFn (wordFields 32 1 n) (.cons 0 (.bv 0 32) .nil) dIn dOut r src out) :
    Wires n (src 1) (src 2) (src 3) ∧ ∃ o, Does n f (ofRaw r) o (src 1) (src 2) (src 3) := by
  obtain ⟨hS, hO, h⟩ := h
  obtain ⟨hW, h4⟩ := wires_of hS
  refine ⟨hW, ?_⟩
  obtain ⟨o, hout⟩ : ∃ o, out (outKey o) = some 0 := by
    obtain ⟨o, ho, hout, _⟩ := hO.once 0 (.bv 0 32) (by simp [Fields.toList])
    simp only [dOut, Fields.toList, List.map_cons, List.map_nil, List.mem_cons, List.not_mem_nil, or_false] at ho
    rcases ho with rfl | rfl
    · exact ⟨true, hout⟩
    · exact ⟨false, hout⟩
  refine ⟨o, ?_⟩
  intro xs z0 z1 z2 z hl
  have := h (envOf xs) (fun k => if k = (1 : Nat) then z0.toNat else if k = (2 : Nat) then z1.toNat else if k = (3 : Nat) then z2.toNat else z.toNat) (outKey o)
    (by cases o <;> simp [dOut, Fields.toList, outKey]) 0 hout
  simp only [WIr.wordFn, row_env hl] at this
  simp only [dIn, rowOf, peFn, out_bits, width, mod32] at this
  simp only [prodBits, fieldBits, if_true] at this
  have e := (BitVec.eq_of_toNat_eq this).symm
  rw [e]
  have p1 : BitVec.ofNat 32 (wired src (envOf xs) (fun k => if k = (1 : Nat) then z0.toNat else if k = (2 : Nat) then z1.toNat else if k = (3 : Nat) then z2.toNat else z.toNat) 1) = port (src 1) xs z0 := by
    simp only [wired]
    cases src 1 with
    | none => simp [port]
    | some q => simp [port, envOf]
  have p4 : BitVec.ofNat 32 (wired src (envOf xs) (fun k => if k = (1 : Nat) then z0.toNat else if k = (2 : Nat) then z1.toNat else if k = (3 : Nat) then z2.toNat else z.toNat) 4) = z := by
    simp [wired, h4]
  have p2 : BitVec.ofNat 32 (wired src (envOf xs) (fun k => if k = (1 : Nat) then z0.toNat else if k = (2 : Nat) then z1.toNat else if k = (3 : Nat) then z2.toNat else z.toNat) 2) = port (src 2) xs z1 := by
    simp only [wired]
    cases src 2 with
    | none => simp [port]
    | some q => simp [port, envOf]
  have p3 : BitVec.ofNat 32 (wired src (envOf xs) (fun k => if k = (1 : Nat) then z0.toNat else if k = (2 : Nat) then z1.toNat else if k = (3 : Nat) then z2.toNat else z.toNat) 3) = port (src 3) xs z2 := by
    simp only [wired]
    cases src 3 with
    | none => simp [port]
    | some q => simp [port, envOf]
  rw [p1, p2, p3, p4]

theorem port_of {n : Nat} {s0 s1 s2 : Option Nat} (x z : Key → Nat) {k : Key} {s : Option Nat} (hk : srcOf s0 s1 s2 k = s) (hs : ∀ q, s = some q → 1 ≤ q ∧ q ≤ n) :
    BitVec.ofNat 32 (wired (srcOf s0 s1 s2) x z k) = port s ((rowOf (wordFields 32 1 n) x).map (WIr.leafWord 32)) (.ofNat 32 (z k)) := by
  simp only [wired, hk]
  cases s with
  | none => rfl
  | some q =>
    obtain ⟨l1, l2⟩ := hs q rfl
    simp only [port]
    rw [row_get x n 1 (q - 1) (by omega)]
    have : 1 + (q - 1) = q := by omega
    simp only [Option.getD_some, this]

theorem of_does {n : Nat} {f : List Word → Word} {r : RVal} {o : Bool} {s0 s1 s2 : Option Nat} (hW : Wires n s0 s1 s2) (h : Does n f (ofRaw r) o s0 s1 s2) :
    ComputesWith (WIr.wordFn 32 f) peFn (wordFields 32 1 n) (.cons 0 (.bv 0 32) .nil) dIn dOut r (srcOf s0 s1 s2) (outOf o) := by
  refine ⟨of_wires hW, of_out o, ?_⟩
  intro x z k hk q hq
  have ek : k = outKey o ∧ q = 0 := by
    simp only [outOf] at hq
    split at hq
    · cases hq
      exact ⟨‹_›, rfl⟩
    · cases hq
  obtain ⟨rfl, rfl⟩ := ek
  have e := h ((rowOf (wordFields 32 1 n) x).map (WIr.leafWord 32)) (.ofNat 32 (z 1)) (.ofNat 32 (z 2)) (.ofNat 32 (z 3)) (.ofNat 32 (z 4)) (row_len x n 1)
  simp only [WIr.wordFn, e]
  simp only [dIn, rowOf, peFn, out_bits, width, mod32]
  simp only [prodBits, fieldBits, if_true]
  rw [port_of (k := 1) (s := s0) x z rfl (fun q hq => ⟨(hW.r0 q hq).1, (hW.r0 q hq).2.1⟩), port_of (k := 2) (s := s1) x z rfl (fun q hq => ⟨(hW.r1 q hq).1, (hW.r1 q hq).2.1⟩), port_of (k := 3) (s := s2) x z rfl hW.r2]
  rfl

/-! ## from instructions to functions -/

theorem reg_of {n : Nat} {r : Idx} {s : Option Nat} (h : ∀ k, s = some k → 1 ≤ k ∧ k ≤ n) : IsReg n (opd r s) := by
  rcases opd_cases (r := r) h with e | ⟨i, a, b, _⟩
  · exact .inl e
  · exact .inr ⟨i, a, b⟩

/-- An operand that is an input is wired to it. -/
theorem opd_input {r : Idx} {s : Option Nat} {n j : Nat} (h : ∀ k, s = some k → 1 ≤ k ∧ k ≤ n) (e : opd r s = .input j) : s = some (j + 1) := by
  rcases opd_cases (r := r) h with e' | ⟨i, _, e', es⟩
  · rw [e'] at e; cases e
  · rw [e'] at e
    cases e
    exact es

/-- Not a multiplication or division. -/
def Shape.Base (s : Shape) : Prop := ∀ o a b, s ≠ .op (.muldiv o) a b

theorem shape_of {n : Nat} {f : List Word → Word} {i : InstM} {o : Bool} {s0 s1 s2 : Option Nat} (hW : Wires n s0 s1 s2) (h : Does n f i o s0 s1 s2) :
    n ≤ 3 ∧ ∃ s : Shape, s.Encodable n ∧ ((∃ j, i = .base j) → s.Base) ∧ ∀ xs, xs.length = n → f xs = s.val xs := by
  have hL : (List.replicate n (0 : Word)).length = n := List.length_replicate
  refine ⟨wires_le hW, ?_⟩
  have l1 : ∀ k, s1 = some k → 1 ≤ k ∧ k ≤ n := fun k hk => ⟨(hW.r1 k hk).1, (hW.r1 k hk).2.1⟩
  have l2 := hW.r2
  have n12 : ∀ r r' j, opd r s1 = .input j → opd r' s2 ≠ .input j := fun r r' j e e' => (hW.r1 _ (opd_input l1 e)).2.2 (opd_input l2 e')
  have two : ∀ (o : Op) r r', (Shape.op o (opd r s1) (opd r' s2)).Encodable n := by
    intro o r r'
    refine ⟨reg_of l1, ?_⟩
    rcases reg_of (r := r') l2 with e | ⟨j, hj, e⟩
    · exact .inl e
    · exact .inr (.inl ⟨j, hj, e, fun ha => n12 _ _ _ ha e⟩)
  have hpc : (∃ i, i < n ∧ s0 = some (i + 1)) ∨ s0 = none := by
    cases e : s0 with
    | none => exact .inr rfl
    | some q =>
      have := hW.r0 q e
      exact .inl ⟨q - 1, by omega, by congr 1; omega⟩
  -- nothing depends on what is not wired
  have free : ∀ p p' z z' : Word, s0 = none ∨ p = p' → sel o (outs i (port s0 (List.replicate n 0) p) (port s1 (List.replicate n 0) 0) (port s2 (List.replicate n 0) 0) z) =
      sel o (outs i (port s0 (List.replicate n 0) p') (port s1 (List.replicate n 0) 0) (port s2 (List.replicate n 0) 0) z') :=
    fun p p' z z' _ => (h _ p 0 0 z hL).symm.trans (h _ p' 0 0 z' hL)
  have h01 : ¬ (0 : Word) = 1 := by decide
  have dest : ∀ (d : Idx) (v : Word → Word → Word → Word), o = false → (∀ pc a b z, (outs i pc a b z).2 = if d ≠ 0 then v pc a b else z) → d ≠ 0 := by
    rintro d v rfl hv hd
    have := free 0 0 0 1 (.inr rfl)
    simp only [sel, hv, hd] at this
    exact h01 this
  have nofree : (∀ a b p z p' z', sel o (outs i p a b z) = sel o (outs i p' a b z') → p = p') → ∃ i, i < n ∧ s0 = some (i + 1) := by
    intro hi
    rcases hpc with hp | rfl
    · exact hp
    · exact absurd (hi _ _ _ _ _ _ (free 0 1 0 0 (.inl rfl))) h01
  have fin : ∀ s : Shape, s.Encodable n → ((∃ j, i = .base j) → s.Base) → (∀ xs, sel o (outs i (port s0 xs 0) (port s1 xs 0) (port s2 xs 0) 0) = s.val xs) → ∃ s : Shape, s.Encodable n ∧ ((∃ j, i = .base j) → s.Base) ∧ ∀ xs, xs.length = n → f xs = s.val xs :=
    fun s h1 h3 h2 => ⟨s, h1, h3, fun xs hx => (h xs 0 0 0 0 hx).trans (h2 xs)⟩
  have plus : ∀ a p p' : Word, p + a = p' + a → p = p' := fun a p p' e => (BitVec.add_left_inj _).mp e
  cases o with
  | true =>
    have plain : (match i with | .base (.JAL _) | .base (.JALR _) | .base (.Branch _ _) => False | _ => True) → ∃ s : Shape, s.Encodable n ∧ ((∃ j, i = .base j) → s.Base) ∧ ∀ xs, xs.length = n → f xs = s.val xs := by
      intro hp
      obtain ⟨q, hq, rfl⟩ := nofree (fun a b p z p' z' e => plus 4 _ _ (by simpa only [sel, if_true, next_plain i hp] using e))
      refine fin (.next q) hq (by rintro _ o a b h; cases h) (fun xs => ?_)
      simp only [sel, if_true, next_plain i hp, Shape.val, RV.add4]
      rfl
    cases i with
    | muldiv d t => exact plain trivial
    | base i =>
      cases i with
      | JAL d =>
        obtain ⟨q, hq, rfl⟩ := nofree (fun a b p z p' z' e => by
          simp only [sel, if_true, next_jal, RV.add_imm] at e
          exact plus _ _ _ e)
        refine fin (.jump q d.imm) hq (by rintro _ o a b h; cases h) (fun xs => ?_)
        simp only [sel, if_true, next_jal, Shape.val]
        rfl
      | JALR d =>
        refine fin (.target (opd d.rs1 s1) d.imm) (reg_of l1) (by rintro _ o a b h; cases h) (fun xs => ?_)
        simp only [sel, if_true, next_jalr, Shape.val, ← opd_val]
      | Branch d t =>
        obtain ⟨q, hq, rfl⟩ := nofree (fun a b p z p' z' e => by
          simp only [sel, if_true, next_branch, RV.add_imm, RV.add4] at e
          generalize isaTaken t _ _ = c at e
          cases c <;> exact plus _ _ _ e)
        have n0 := hW.r0 _ rfl
        refine fin (.branch t (opd d.rs1 s1) (opd d.rs2 s2) q d.imm) ⟨reg_of l1, reg_of l2, hq, fun e => n0.2.2.1 (opd_input l1 e), fun e => n0.2.2.2 (opd_input l2 e), fun j e => n12 _ _ _ e⟩ (by rintro _ o a b h; cases h) (fun xs => ?_)
        simp only [sel, if_true, next_branch, Shape.val, ← opd_val]
        rfl
      | OP d t => exact plain trivial
      | OP_IMM d => exact plain trivial
      | LUI d => exact plain trivial
      | AUIPC d => exact plain trivial
      | Load d t => exact plain trivial
      | Store d t => exact plain trivial
  | false =>
    cases i with
    | muldiv d t =>
      have hd := dest d.rd _ rfl (outs_md d t)
      refine fin (.op (.muldiv t) (opd d.rs1 s1) (opd d.rs2 s2)) (two _ _ _) (by rintro ⟨j, hj⟩; cases hj) (fun xs => ?_)
      show (outs _ _ _ _ _).2 = _
      rw [outs_md, if_pos hd, opd_val, opd_val]
      rfl
    | base i =>
      cases i with
      | OP d t =>
        have hd := dest d.rd _ rfl (RMap.outs_op d t)
        refine fin (.op (.alu t) (opd d.rs1 s1) (opd d.rs2 s2)) (two _ _ _) (by rintro _ o a b h; cases h) (fun xs => ?_)
        rw [sel_base, RMap.outs_op, if_pos hd, opd_val, opd_val]
        rfl
      | OP_IMM i =>
        cases i with
        | arith d t =>
          have hd := dest d.rd _ rfl (RMap.outs_immA d t)
          refine fin (.op (.alu (.arith t)) (opd d.rs1 s1) (.imm12 d.imm)) ⟨reg_of l1, .inr (.inr (.inl ⟨_, _, rfl, rfl⟩))⟩ (by rintro _ o a b h; cases h) (fun xs => ?_)
          rw [sel_base, RMap.outs_immA, if_pos hd, opd_val]
          rfl
        | shift d t =>
          have hd := dest d.rd _ rfl (RMap.outs_immS d t)
          refine fin (.op (.alu (.shift t)) (opd d.rs1 s1) (.imm5 d.imm)) ⟨reg_of l1, .inr (.inr (.inr ⟨_, _, rfl, rfl⟩))⟩ (by rintro _ o a b h; cases h) (fun xs => ?_)
          rw [sel_base, RMap.outs_immS, if_pos hd, opd_val]
          rfl
      | LUI d =>
        have hd := dest d.rd (fun _ _ _ => _) rfl (RMap.outs_lui d)
        refine fin (.upper d.imm) trivial (by rintro _ o a b h; cases h) (fun xs => ?_)
        rw [sel_base, RMap.outs_lui, if_pos hd]
        rfl
      | AUIPC d =>
        have hd := dest d.rd (fun p _ _ => p + _) rfl (RMap.outs_auipc d)
        obtain ⟨q, hq, rfl⟩ := nofree (fun a b p z p' z' e => by
          rw [sel_base, sel_base, RMap.outs_auipc, RMap.outs_auipc, if_pos hd, if_pos hd] at e
          exact plus _ _ _ e)
        refine fin (.pcUpper q d.imm) hq (by rintro _ o a b h; cases h) (fun xs => ?_)
        rw [sel_base, RMap.outs_auipc, if_pos hd, RV.upper]
        simp only [Shape.val]
        rw [BitVec.ofNat_add]
        simp [port]
      | JAL d =>
        have hd := dest d.rd (fun p _ _ => p + 4) rfl (RMap.outs_jal d)
        obtain ⟨q, hq, rfl⟩ := nofree (fun a b p z p' z' e => by
          rw [sel_base, sel_base, RMap.outs_jal, RMap.outs_jal, if_pos hd, if_pos hd] at e
          exact plus _ _ _ e)
        refine fin (.next q) hq (by rintro _ o a b h; cases h) (fun xs => ?_)
        rw [sel_base, RMap.outs_jal, if_pos hd]
        simp only [Shape.val, RV.add4]
        rfl
      | JALR d =>
        have hd := dest d.rd (fun p _ _ => p + 4) rfl (RMap.outs_jalr d)
        obtain ⟨q, hq, rfl⟩ := nofree (fun a b p z p' z' e => by
          rw [sel_base, sel_base, RMap.outs_jalr, RMap.outs_jalr, if_pos hd, if_pos hd] at e
          exact plus _ _ _ e)
        refine fin (.next q) hq (by rintro _ o a b h; cases h) (fun xs => ?_)
        rw [sel_base, RMap.outs_jalr, if_pos hd]
        simp only [Shape.val, RV.add4]
        rfl
      | Branch d t =>
        have e := free 0 0 0 1 (.inr rfl)
        rw [sel_base, sel_base, RMap.outs_branch, RMap.outs_branch] at e
        exact absurd e h01
      | Load d t => exact absurd (free 0 0 0 1 (.inr rfl)) h01
      | Store d t => exact absurd (free 0 0 0 1 (.inr rfl)) h01

theorem fits_of {n : Nat} {f : List Word → Word} {i : InstM} {o : Bool} {s0 s1 s2 : Option Nat} (hW : Wires n s0 s1 s2) (h : Does n f i o s0 s1 s2) : Fits n f := by
  obtain ⟨hn, s, h1, _, h2⟩ := shape_of hW h
  exact ⟨hn, s, h1, h2⟩

/-! ## and back -/

/-- The wire an operand wants. -/
def want : Operand → Option Nat
  | .input i => some (i + 1)
  | _ => none

theorem want_some {a : Operand} {k : Nat} (h : want a = some k) : ∃ i, a = .input i ∧ k = i + 1 := by
  cases a <;> simp [want] at h
  exact ⟨_, rfl, h.symm⟩

theorem want_val {n : Nat} {a : Operand} (ha : IsReg n a) {s : Option Nat} (hs : ∀ k, want a = some k → s = some k) (xs : List Word) (z : Word) :
    (if regOf a ≠ 0 then port s xs z else 0) = a.val xs := by
  rcases ha with rfl | ⟨i, hi, rfl⟩
  · rfl
  · rw [hs (i + 1) rfl]
    rfl

theorem want_range {n : Nat} {a : Operand} (ha : IsReg n a) {k : Nat} (h : want a = some k) : 1 ≤ k ∧ k ≤ n := by
  obtain ⟨i, rfl, rfl⟩ := want_some h
  rcases ha with e | ⟨j, hj, e⟩
  · cases e
  · cases e
    omega

/-- Wires for a program counter and two registers. -/
theorem wires_for {n : Nat} (hn : n ≤ 3) {p a b : Operand} (hp : IsReg n p) (ha : IsReg n a) (hb : IsReg n b) (n01 : ∀ j, p = .input j → a ≠ .input j) (n02 : ∀ j, p = .input j → b ≠ .input j)
    (n12 : ∀ j, a = .input j → b ≠ .input j) : ∃ s0 s1 s2, Wires n s0 s1 s2 ∧ (∀ j, p = .input j → s0 = some (j + 1)) ∧
      (∀ xs z, (if regOf a ≠ 0 then port s1 xs z else 0) = a.val xs) ∧ ∀ xs z, (if regOf b ≠ 0 then port s2 xs z else 0) = b.val xs := by
  have ne : ∀ {x y : Operand}, (∀ j, x = .input j → y ≠ .input j) → ∀ k, want x = some k → want y ≠ some k := by
    intro x y h k hx hy
    obtain ⟨i, rfl, rfl⟩ := want_some hx
    obtain ⟨j, rfl, e⟩ := want_some hy
    exact h i rfl (by congr 1; omega)
  obtain ⟨s0, s1, s2, hw, e0, e1, e2⟩ := complete hn (want p) (want a) (want b) (fun k hk => ⟨(want_range hp hk).1, (want_range hp hk).2, ne n01 k hk, ne n02 k hk⟩)
    (fun k hk => ⟨(want_range ha hk).1, (want_range ha hk).2, ne n12 k hk⟩) (fun k hk => want_range hb hk)
  exact ⟨s0, s1, s2, hw, fun j hj => e0 _ (by rw [hj]; rfl), fun xs z => want_val ha e1 xs z, fun xs z => want_val hb e2 xs z⟩

theorem of_shape {n : Nat} {f : List Word → Word} (hn : n ≤ 3) {s : Shape} (hs : s.Encodable n) (hf : ∀ xs, xs.length = n → f xs = s.val xs) :
    ∃ i o s0 s1 s2, (s.Base → ∃ j, i = .base j) ∧ Wires n s0 s1 s2 ∧ Does n f i o s0 s1 s2 := by
  have no : ∀ {x : Operand}, ∀ j, Operand.zero = .input j → x ≠ .input j := fun j e => by cases e
  have no' : ∀ {x : Operand}, ∀ j, x = .input j → Operand.zero ≠ .input j := fun j _ e => by cases e
  have addr : ∀ q, q < n → ∃ s0 s1 s2, Wires n s0 s1 s2 ∧ s0 = some (q + 1) := by
    intro q hq
    obtain ⟨s0, s1, s2, hw, e, _⟩ := wires_for hn (.inr ⟨q, hq, rfl⟩) (.inl rfl) (.inl rfl) no' no' no
    exact ⟨s0, s1, s2, hw, e q rfl⟩
  have regs : ∀ a b, IsReg n a → IsReg n b → (∀ j, a = .input j → b ≠ .input j) → ∃ s0 s1 s2, Wires n s0 s1 s2 ∧
      (∀ xs z, (if regOf a ≠ 0 then port s1 xs z else 0) = a.val xs) ∧ ∀ xs z, (if regOf b ≠ 0 then port s2 xs z else 0) = b.val xs := by
    intro a b ha hb hab
    obtain ⟨s0, s1, s2, hw, _, e⟩ := wires_for hn (p := .zero) (.inl rfl) ha hb no no hab
    exact ⟨s0, s1, s2, hw, e⟩
  cases s with
  | op o a b =>
    obtain ⟨ha, hb⟩ := hs
    have go : b = .zero ∨ (∃ j, j < n ∧ b = .input j ∧ a ≠ .input j) → ∃ i o' s0 s1 s2, ((Shape.op o a b).Base → ∃ j, i = .base j) ∧ Wires n s0 s1 s2 ∧ Does n f i o' s0 s1 s2 := by
      intro hb
      obtain ⟨s0, s1, s2, hw, v1, v2⟩ := regs a b ha (hb.imp_right (fun ⟨j, h1, h2, _⟩ => ⟨j, h1, h2⟩)) (fun j h1 h2 => by
        rcases hb with rfl | ⟨j', _, rfl, hne⟩
        · cases h2
        · cases h2
          exact hne h1)
      cases o with
      | alu t =>
        refine ⟨.base (.OP ⟨1, regOf a, regOf b⟩ t), false, s0, s1, s2, fun _ => ⟨_, rfl⟩, hw, fun xs z0 z1 z2 z hl => ?_⟩
        rw [sel_base, hf xs hl, RMap.outs_op, if_pos (by simp), v1, v2]
        rfl
      | muldiv t =>
        refine ⟨.muldiv ⟨1, regOf a, regOf b⟩ t, false, s0, s1, s2, fun h => absurd rfl (h _ _ _), hw, fun xs z0 z1 z2 z hl => ?_⟩
        show _ = (outs _ _ _ _ _).2
        rw [hf xs hl, outs_md, if_pos (by simp), v1, v2]
        rfl
    rcases hb with hb | hb | ⟨v, t, rfl, rfl⟩ | ⟨v, t, rfl, rfl⟩
    · exact go (.inl hb)
    · exact go (.inr hb)
    · obtain ⟨s0, s1, s2, hw, v1, _⟩ := regs a .zero ha (.inl rfl) no'
      refine ⟨.base (.OP_IMM (.arith ⟨1, regOf a, v⟩ t)), false, s0, s1, s2, fun _ => ⟨_, rfl⟩, hw, fun xs z0 z1 z2 z hl => ?_⟩
      rw [sel_base, hf xs hl, RMap.outs_immA, if_pos (by simp), v1]
      rfl
    · obtain ⟨s0, s1, s2, hw, v1, _⟩ := regs a .zero ha (.inl rfl) no'
      refine ⟨.base (.OP_IMM (.shift ⟨1, regOf a, v⟩ t)), false, s0, s1, s2, fun _ => ⟨_, rfl⟩, hw, fun xs z0 z1 z2 z hl => ?_⟩
      rw [sel_base, hf xs hl, RMap.outs_immS, if_pos (by simp), v1]
      rfl
  | upper v =>
    obtain ⟨s0, s1, s2, hw, _⟩ := regs .zero .zero (.inl rfl) (.inl rfl) no
    refine ⟨.base (.LUI ⟨1, v⟩), false, s0, s1, s2, fun _ => ⟨_, rfl⟩, hw, fun xs z0 z1 z2 z hl => ?_⟩
    rw [sel_base, hf xs hl, RMap.outs_lui, if_pos (by simp)]
    rfl
  | pcUpper q v =>
    obtain ⟨s0, s1, s2, hw, rfl⟩ := addr q hs
    refine ⟨.base (.AUIPC ⟨1, v⟩), false, _, s1, s2, fun _ => ⟨_, rfl⟩, hw, fun xs z0 z1 z2 z hl => ?_⟩
    rw [sel_base, hf xs hl, RMap.outs_auipc, if_pos (by simp), RV.upper]
    simp only [Shape.val]
    rw [BitVec.ofNat_add]
    simp [port]
  | next q =>
    obtain ⟨s0, s1, s2, hw, rfl⟩ := addr q hs
    refine ⟨.base (.JAL ⟨1, 0⟩), false, _, s1, s2, fun _ => ⟨_, rfl⟩, hw, fun xs z0 z1 z2 z hl => ?_⟩
    rw [sel_base, hf xs hl, RMap.outs_jal, if_pos (by simp)]
    simp only [Shape.val, RV.add4]
    rfl
  | jump q v =>
    obtain ⟨s0, s1, s2, hw, rfl⟩ := addr q hs
    refine ⟨.base (.JAL ⟨1, v⟩), true, _, s1, s2, fun _ => ⟨_, rfl⟩, hw, fun xs z0 z1 z2 z hl => ?_⟩
    show _ = (outs _ _ _ _ _).1
    rw [hf xs hl, next_jal]
    rfl
  | target a v =>
    obtain ⟨s0, s1, s2, hw, v1, _⟩ := regs a .zero hs (.inl rfl) no'
    refine ⟨.base (.JALR ⟨1, regOf a, v⟩), true, s0, s1, s2, fun _ => ⟨_, rfl⟩, hw, fun xs z0 z1 z2 z hl => ?_⟩
    show _ = (outs _ _ _ _ _).1
    rw [hf xs hl, next_jalr, v1]
    rfl
  | branch c a b q v =>
    obtain ⟨ha, hb, hq, n1, n2, n3⟩ := hs
    obtain ⟨s0, s1, s2, hw, e0, v1, v2⟩ := wires_for hn (p := .input q) (.inr ⟨q, hq, rfl⟩) ha hb (fun j e => by cases e; exact n1) (fun j e => by cases e; exact n2) n3
    refine ⟨.base (.Branch ⟨regOf a, regOf b, v⟩ c), true, s0, s1, s2, fun _ => ⟨_, rfl⟩, hw, fun xs z0 z1 z2 z hl => ?_⟩
    show _ = (outs _ _ _ _ _).1
    rw [hf xs hl, next_branch, v1, v2, e0 q rfl]
    rfl

theorem of_fits {n : Nat} {f : List Word → Word} (h : Fits n f) : ∃ i o s0 s1 s2, Wires n s0 s1 s2 ∧ Does n f i o s0 s1 s2 := by
  obtain ⟨hn, s, hs, hf⟩ := h
  obtain ⟨i, o, s0, s1, s2, _, h⟩ := of_shape hn hs hf
  exact ⟨i, o, s0, s1, s2, h⟩

theorem inst_accepts {opts : Fields} (ho : opts.toList.Perm options) (i : InstM) : RHas (instT opts) (rawOf (instT opts) (instVal i)) ∧
    Accepts (instT opts) (rawCode (instT opts) (rawOf (instT opts) (instVal i))) := by
  obtain ⟨h1, h2⟩ := C38_rawOf (instT opts) (instVal i) (inst_wf ho) (inst_has ho i)
  rw [h2]
  exact ⟨h1, Acc.accepts_of_reads _ _ _ (encode_spec _ (inst_wf ho) _ (inst_has ho i)).2⟩

theorem can_iff {opts : Fields} (ho : opts.toList.Perm options) {n : Nat} {f : List Word → Word} :
    CanComputeAccepted (WIr.wordFn 32 f) peFn (instT opts) (wordFields 32 1 n) (.cons 0 (.bv 0 32) .nil) dIn dOut ↔ Fits n f := by
  constructor
  · rintro ⟨r, src, out, _, _, h⟩
    obtain ⟨h1, h2⟩ := does_of h
    obtain ⟨o, h2⟩ := h2
    exact fits_of h1 h2
  · intro h
    obtain ⟨i, o, s0, s1, s2, h1, h2⟩ := of_fits h
    obtain ⟨a, b⟩ := inst_accepts ho i
    exact ⟨_, _, _, a, b, of_does h1 (by rw [inst_raw ho]; exact h2)⟩

/-! ## theorems -/

/-- C84: with an instruction of the ISA with multiplication and division, for any state of the caches of validators and any order of the options of `Inst`, the simulator of the SMT family, reading the bits of the
instruction, computes what it computes on the instruction. -/
theorem C84_agree (P : Process) (opts : Fields) (ho : opts.toList.Perm options) (i : InstM) (pc rs1 rs2 rd : Word) :
    ∃ x, AV.new P.asm (instT opts) (.raw (instVal i)) = .ok x ∧ smtCall P.asm x pc rs1 rs2 rd = RV.mappableM smtOps i pc rs1 rs2 rd := by
  have hh := inst_has ho i
  obtain ⟨h1, h2⟩ := C38_rawOf (instT opts) (instVal i) (inst_wf ho) hh
  refine ⟨_, new_raw P (inst_wf ho) hh, ?_⟩
  have := call_of P ho h1 pc rs1 rs2 rd
  rw [h2, inst_raw ho] at this
  exact this

/-- C84: the mapper finds an instruction and wires for exactly the functions of words that one instruction computes, and the rule is correct; otherwise it returns None.  For any order of
the options of `Inst`, any encoding of formulas and any sound and complete solver. -/
theorem C84_mapped (P : Process) (hP : MildProcess P) (opts : Fields) (ho : opts.toList.Perm options) (enc : IEnc) (n : Nat) (hn : 0 < n) (f : List Word → Word)
    (solve : (MAsg Nat → Prop) → Option (MAsg Nat)) (hsat : ∀ φ a, solve φ = some a → φ a) (hcomp : ∀ φ a, φ a → ∃ a', solve φ = some a') (a0 : MAsg Nat) :
    (Fits n f → ∃ r, mapSolve P.asm (problem P.asm opts enc n f) solve a0 = .ok (some r) ∧ IsMapping P.asm (problem P.asm opts enc n f) r ∧
      RuleRight P (wordIr 32 n f) (pe P.asm opts) r) ∧
    (¬ Fits n f → mapSolve P.asm (problem P.asm opts enc n f) solve a0 = .ok none) := by
  have key := C33_instruction_known P (problem P.asm opts enc n f) (WIr.wordFn 32 f) peFn (fun _ => [1]) 0 (instT opts) (wordFields 32 1 n) (.cons 0 (.bv 0 32) .nil) dIn dOut
    (shape P.asm opts enc n f) (setup P ho enc hn f) (pe_total P ho) (known hP ho) (hP.leaves (inst_wf ho) (inst_mild ho)) solve hsat hcomp a0
  rw [can_iff ho] at key
  exact right_of (setup P ho enc hn f) key

/-- C84: the same with `simple_formula=True`. -/
theorem C84_mapped_simple (P : Process) (hP : MildProcess P) (opts : Fields) (ho : opts.toList.Perm options) (enc : IEnc) (n : Nat) (hn : 0 < n) (f : List Word → Word)
    (solve : (SAsg Nat → Prop) → Option (SAsg Nat)) (hsat : ∀ φ a, solve φ = some a → φ a) (hcomp : ∀ φ a, φ a → ∃ a', solve φ = some a') (a0 : SAsg Nat) :
    (Fits n f → ∃ r, simpleSolve P.asm (problem P.asm opts enc n f) solve a0 = .ok (some r) ∧ IsMapping P.asm (problem P.asm opts enc n f) r ∧
      RuleRight P (wordIr 32 n f) (pe P.asm opts) r) ∧
    (¬ Fits n f → simpleSolve P.asm (problem P.asm opts enc n f) solve a0 = .ok none) := by
  have key := C55_instruction_known_plain P (problem P.asm opts enc n f) (WIr.wordFn 32 f) peFn (fun _ => [1]) 0 (instT opts) (wordFields 32 1 n) (.cons 0 (.bv 0 32) .nil) dIn dOut
    (shape P.asm opts enc n f) (setup P ho enc hn f) (pe_total P ho) (pe_boxes P.asm opts) (known hP ho) (hP.leaves (inst_wf ho) (inst_mild ho)) solve hsat hcomp a0
  rw [can_iff ho] at key
  exact right_of (setup P ho enc hn f) key

/-- The options in the order of their definitions. -/
def inOrder : Fields :=
  .cons oOP opT (.cons oIMM immT (.cons oLUI luiT (.cons oAUIPC auipcT (.cons oJAL jalT (.cons oJALR jalrT (.cons oBranch brT (.cons oLoad ldT (.cons oStore stT .nil))))))))

/-- Hypotheses: the empty process, and the options in order. -/
example : MildProcess ⟨fun _ => []⟩ ∧ inOrder.toList.Perm options := ⟨(by intro n t h; cases h), List.Perm.refl _⟩

theorem mul_fits : Fits 2 (fun xs => xs[0]?.getD 0 * xs[1]?.getD 0) := by
  refine ⟨by decide, .op (.muldiv .MUL) (.input 0) (.input 1), ⟨.inr ⟨0, by decide, rfl⟩, .inr (.inl ⟨1, by decide, rfl, by simp⟩)⟩, fun xs _ => ?_⟩
  apply BitVec.eq_of_toNat_eq
  simp [Shape.val, Op.result, isaMulDiv, Operand.val]

theorem branch_fits : Fits 3 (fun xs => if xs[0]?.getD 0 = xs[2]?.getD 0 then xs[1]?.getD 0 - 4 else xs[1]?.getD 0 + 4) := by
  refine ⟨by decide, .branch .BEQ (.input 0) (.input 2) 1 (-2), ⟨.inr ⟨0, by decide, rfl⟩, .inr ⟨2, by decide, rfl⟩, by decide, by simp, by simp, fun j h => by cases h; simp⟩, fun xs _ => ?_⟩
  have e : (-2 : BitVec 12).toInt = -2 := by decide
  simp only [Shape.val, Operand.val, isaTaken, RV.add4, RV.add_imm, e, decide_eq_true_eq, BitVec.toNat_inj]
  split
  · have : BitVec.ofInt 32 (2 * -2) = -(4 : Word) := by decide
    rw [this, BitVec.sub_eq_add_neg]
  · rfl

/-- Multiplication, and a jump that depends on the equality of two words, are mapped. -/
example (P : Process) (hP : MildProcess P) (opts : Fields) (ho : opts.toList.Perm options) (enc : IEnc) (solve : (MAsg Nat → Prop) → Option (MAsg Nat))
    (hsat : ∀ φ a, solve φ = some a → φ a) (hcomp : ∀ φ a, φ a → ∃ a', solve φ = some a') (a0 : MAsg Nat) :
    (∃ r, mapSolve P.asm (problem P.asm opts enc 2 (fun xs => xs[0]?.getD 0 * xs[1]?.getD 0)) solve a0 = .ok (some r)) ∧
    ∃ r, mapSolve P.asm (problem P.asm opts enc 3 (fun xs => if xs[0]?.getD 0 = xs[2]?.getD 0 then xs[1]?.getD 0 - 4 else xs[1]?.getD 0 + 4)) solve a0 = .ok (some r) := by
  obtain ⟨r, h, _⟩ := (C84_mapped P hP opts ho enc 2 (by decide) _ solve hsat hcomp a0).1 mul_fits
  obtain ⟨r', h', _⟩ := (C84_mapped P hP opts ho enc 3 (by decide) _ solve hsat hcomp a0).1 branch_fits
  exact ⟨⟨r, h⟩, r', h'⟩

/-! ## the division of the manual -/

/-- The division of the manual. -/
def manualDiv (xs : List Word) : Word := isaMulDiv .DIV (xs[0]?.getD 0) (xs[1]?.getD 0)

theorem div_points : manualDiv [0, 0] = -1 ∧ manualDiv [-1, 0] = -1 ∧ manualDiv [0, 1] = 0 ∧ manualDiv [5, 1] = 5 ∧ manualDiv [6, 2] = 3 ∧ manualDiv [-1, 2] = 0 := by decide

theorem div_unfit : ¬ Fits 2 manualDiv := by
  rintro ⟨_, s, hs, hf⟩
  obtain ⟨v1, v2, v3, v4, v5, v6⟩ := div_points
  have f1 := hf [0, 0] rfl
  have f2 := hf [-1, 0] rfl
  have f3 := hf [0, 1] rfl
  have f4 := hf [5, 1] rfl
  have f5 := hf [6, 2] rfl
  have f6 := hf [-1, 2] rfl
  rw [v1] at f1
  rw [v2] at f2
  rw [v3] at f3
  rw [v4] at f4
  rw [v5] at f5
  rw [v6] at f6
  have n1 : ¬ (-1 : Word) = 0 := by decide
  have n2 : ¬ (5 : Word) = 0 := by decide
  -- both inputs are used
  have one : ∀ i, i < 2 → ¬ ∀ xs ys : List Word, xs[i]? = ys[i]? → s.val xs = s.val ys := by
    intro i hi h
    have hi : i = 0 ∨ i = 1 := by omega
    rcases hi with rfl | rfl
    · exact n1 (f1.trans ((h [0, 0] [0, 1] rfl).trans f3.symm))
    · exact n2 (f4.trans ((h [5, 1] [0, 1] rfl).trans f3.symm))
  cases s with
  | op o a b =>
    obtain ⟨ha, hb⟩ := hs
    have arg : ∀ (c : Operand) i, (∀ j, c = .input j → j = i) → ∀ xs ys : List Word, xs[i]? = ys[i]? → c.val xs = c.val ys := by
      intro c i hc xs ys e
      cases c with
      | input j => rw [hc j rfl]; simp only [Operand.val, e]
      | zero => rfl
      | imm12 v => rfl
      | imm5 v => rfl
    have two : ∀ i, i < 2 → (∀ j, a = .input j → j = i) → (∀ j, b = .input j → j = i) → False := fun i hi h1 h2 =>
      one i hi (fun xs ys e => by simp only [Shape.val, arg a i h1 xs ys e, arg b i h2 xs ys e])
    have hij : (a = .input 0 ∧ b = .input 1) ∨ (a = .input 1 ∧ b = .input 0) := by
      by_contra hc
      rcases ha with rfl | ⟨i, hi, rfl⟩
      · rcases hb with rfl | ⟨j, hj, rfl, _⟩ | ⟨v, t, rfl, _⟩ | ⟨v, t, rfl, _⟩
        · exact two 0 (by decide) (by simp) (by simp)
        · exact two j hj (by simp) (fun k e => by cases e; rfl)
        · exact two 0 (by decide) (by simp) (by simp)
        · exact two 0 (by decide) (by simp) (by simp)
      · rcases hb with rfl | ⟨j, hj, rfl, hne⟩ | ⟨v, t, rfl, _⟩ | ⟨v, t, rfl, _⟩
        · exact two i hi (fun k e => by cases e; rfl) (by simp)
        · have : i ≠ j := fun e => hne (by rw [e])
          have hk : (i = 0 ∧ j = 1) ∨ (i = 1 ∧ j = 0) := by omega
          rcases hk with ⟨rfl, rfl⟩ | ⟨rfl, rfl⟩
          · exact hc (.inl ⟨rfl, rfl⟩)
          · exact hc (.inr ⟨rfl, rfl⟩)
        · exact two i hi (fun k e => by cases e; rfl) (by simp)
        · exact two i hi (fun k e => by cases e; rfl) (by simp)
    clear one two arg hb ha hf
    rcases hij with ⟨rfl, rfl⟩ | ⟨rfl, rfl⟩
    · rcases o with (t | t) | t <;> cases t <;> first | exact absurd f1 (by decide) | exact absurd f2 (by decide) | exact absurd f5 (by decide) | exact absurd f6 (by decide)
    · rcases o with (t | t) | t <;> cases t <;> first | exact absurd f1 (by decide) | exact absurd f2 (by decide) | exact absurd f3 (by decide) | exact absurd f5 (by decide)
  | upper v => exact n1 (f1.trans f3.symm)
  | pcUpper i v => exact one i hs (fun xs ys e => by simp only [Shape.val, e])
  | next i => exact one i hs (fun xs ys e => by simp only [Shape.val, e])
  | jump i v => exact one i hs (fun xs ys e => by simp only [Shape.val, e])
  | target a v =>
    rcases hs with rfl | ⟨i, hi, rfl⟩
    · exact n1 (f1.trans f3.symm)
    · exact one i hi (fun xs ys e => by simp only [Shape.val, Operand.val, e])
  | branch c a b i v =>
    have hx : ([0, 0] : List Word)[i]?.getD 0 = 0 := by
      have hi : i = 0 ∨ i = 1 := by have := hs.2.2.1; omega
      rcases hi with rfl | rfl <;> rfl
    -- an even address
    have odd : ∀ z : Int, (BitVec.ofInt 32 (((0 : Word).toNat : Int) + 2 * z)) ≠ -1 := by
      intro z e
      have e := congrArg BitVec.toNat e
      have em : (-1 : Word).toNat = 4294967295 := by decide
      have e0 : (0 : Word).toNat = 0 := rfl
      rw [em, BitVec.toNat_ofInt, e0] at e
      omega
    simp only [Shape.val, hx] at f1
    generalize isaTaken c _ _ = w at f1
    cases w with
    | true => exact odd _ f1.symm
    | false =>
      have f1 : (-1 : Word) = BitVec.ofNat 32 ((0 : Word).toNat + 4) := f1
      exact absurd f1 (by decide)

/-- C84 violated: no rule is found for the division of the RISC-V manual, although `DIV` is the instruction for it: the SMT family takes `bvsdiv` from SMT-LIB, where a negative number divided
by 0 is 1, not -1. -/
theorem C84_violated_div (P : Process) (hP : MildProcess P) (opts : Fields) (ho : opts.toList.Perm options) (enc : IEnc) :
    (∀ (solve : (MAsg Nat → Prop) → Option (MAsg Nat)), (∀ φ a, solve φ = some a → φ a) → (∀ φ a, φ a → ∃ a', solve φ = some a') → ∀ a0,
      mapSolve P.asm (problem P.asm opts enc 2 manualDiv) solve a0 = .ok none) ∧
    (∀ (solve : (SAsg Nat → Prop) → Option (SAsg Nat)), (∀ φ a, solve φ = some a → φ a) → (∀ φ a, φ a → ∃ a', solve φ = some a') → ∀ a0,
      simpleSolve P.asm (problem P.asm opts enc 2 manualDiv) solve a0 = .ok none) ∧
    ∀ d : RV.R, d.rd ≠ 0 → d.rs1 ≠ 0 → d.rs2 ≠ 0 → ∀ pc a b z, b ≠ 0 ∨ 0 ≤ a.toInt → RV.mappableM smtOps (.muldiv d .DIV) pc a b z = .ok (pc + 4, manualDiv [a, b]) := by
  refine ⟨fun solve h1 h2 a0 => (C84_mapped P hP opts ho enc 2 (by decide) _ solve h1 h2 a0).2 div_unfit,
    fun solve h1 h2 a0 => (C84_mapped_simple P hP opts ho enc 2 (by decide) _ solve h1 h2 a0).2 div_unfit, fun d e1 e2 e3 pc a b z h => ?_⟩
  have h2 := outs_md d .DIV pc a b z
  rw [if_pos e1, if_pos e2, if_pos e3] at h2
  have h3 : (Op.muldiv .DIV).result a b = isaMulDiv .DIV a b := if_neg (fun ⟨hb, ha⟩ => by
    rcases h with h | h
    · exact h hb
    · omega)
  rw [mappable_outs]
  exact congrArg Except.ok (Prod.ext (next_plain _ trivial pc a b z) (h2.trans h3))

end Peak.RMM
