import Verif.Model.RiscVMap
import Verif.Lemmas.RawGet
/-!
# The simulator on the bits of an instruction is the simulator on the instruction
-/

namespace Peak.RMap
open Peak Peak.Spec
open Peak.RV (Word Idx SmtRF smtFile sext zext bvshl Inst ArithInst ShiftInst AluInst BranchInst LoadInst)
open Peak.RPe (isMem idxOf)

/-! ## types -/

theorem arith_wf : WF arithT := by simp [arithT, WF, autos]
theorem shift_wf : WF shiftT := by simp [shiftT, WF, autos]
theorem load_wf : WF loadT := by simp [loadT, WF, autos]
theorem branch_wf : WF branchT := by simp [branchT, WF, autos]
theorem alu_wf : WF aluT := ⟨by simp [Fields.toList], by simp [Fields.toList, kArith, kShift], arith_wf, shift_wf, trivial⟩
theorem r_wf : WF rT := ⟨by simp [Fields.toList, kRd, kRs1, kRs2], trivial, trivial, trivial, trivial⟩
theorem i_wf : WF iT := ⟨by simp [Fields.toList, kRd, kRs1, kImm], trivial, trivial, trivial, trivial⟩
theorem is_wf : WF isT := ⟨by simp [Fields.toList, kRd, kRs1, kImm], trivial, trivial, trivial, trivial⟩
theorem s_wf : WF sT := ⟨by simp [Fields.toList, kRs2, kRs1, kImm], trivial, trivial, trivial, trivial⟩
theorem u_wf : WF uT := ⟨by simp [Fields.toList, kRd, kImm], trivial, trivial, trivial⟩
theorem b_wf : WF bT := ⟨by simp [Fields.toList, kRs2, kRs1, kImm], trivial, trivial, trivial, trivial⟩
theorem j_wf : WF jT := ⟨by simp [Fields.toList, kRd, kImm], trivial, trivial, trivial⟩
theorem op_wf : WF opT := ⟨by simp [Fields.toList, kData, kTag], r_wf, alu_wf, trivial⟩
theorem immA_wf : WF immAT := ⟨by simp [Fields.toList, kData, kTag], i_wf, arith_wf, trivial⟩
theorem immS_wf : WF immST := ⟨by simp [Fields.toList, kData, kTag], is_wf, shift_wf, trivial⟩
theorem imm_wf : WF immT := ⟨by simp [Fields.toList], by simp [Fields.toList, kArith, kShift], immA_wf, immS_wf, trivial⟩
theorem lui_wf : WF luiT := ⟨by simp [Fields.toList], u_wf, trivial⟩
theorem auipc_wf : WF auipcT := ⟨by simp [Fields.toList], u_wf, trivial⟩
theorem jal_wf : WF jalT := ⟨by simp [Fields.toList], j_wf, trivial⟩
theorem jalr_wf : WF jalrT := ⟨by simp [Fields.toList], i_wf, trivial⟩
theorem br_wf : WF brT := ⟨by simp [Fields.toList, kData, kTag], b_wf, branch_wf, trivial⟩
theorem ld_wf : WF ldT := ⟨by simp [Fields.toList, kData, kTag], i_wf, load_wf, trivial⟩
theorem st_wf : WF stT := ⟨by simp [Fields.toList, kData, kTag], s_wf, load_wf, trivial⟩

theorem arith_width : width arithT = 3 := by decide +kernel
theorem shift_width : width shiftT = 2 := by decide +kernel
theorem load_width : width loadT = 3 := by decide +kernel
theorem branch_width : width branchT = 3 := by decide +kernel

theorem wfs_of_list : ∀ {fs : Fields}, (∀ k t, (k, t) ∈ fs.toList → WF t) → WFs fs
  | .nil, _ => trivial
  | .cons k t fs, h => ⟨h k t (by simp [Fields.toList]), wfs_of_list (fun k' t' h' => h k' t' (by simp [Fields.toList, h']))⟩

theorem option_wf {k : Key} {t : Ty} (h : (k, t) ∈ options) : WF t := by
  simp only [options, List.mem_cons, Prod.mk.injEq, List.not_mem_nil, or_false] at h
  rcases h with ⟨_, rfl⟩ | ⟨_, rfl⟩ | ⟨_, rfl⟩ | ⟨_, rfl⟩ | ⟨_, rfl⟩ | ⟨_, rfl⟩ | ⟨_, rfl⟩ | ⟨_, rfl⟩ | ⟨_, rfl⟩
  exacts [op_wf, imm_wf, lui_wf, auipc_wf, jal_wf, jalr_wf, br_wf, ld_wf, st_wf]

theorem inst_wf {opts : Fields} (h : opts.toList.Perm options) : WF (instT opts) := by
  refine ⟨?_, ?_, wfs_of_list (fun k t hk => option_wf (h.mem_iff.mp hk))⟩
  · intro e
    have := h.length_eq
    rw [e] at this
    cases this
  · exact (h.map (·.1)).nodup_iff.mpr (by decide)

/-! ## leaves -/

theorem idx_num {n : Nat} : idxOf (mkAV (.bv 0 5) n) = .ok (.ofNat 5 n) := by
  simp only [mkAV, idxOf, BV.ofNat_val, Except.ok.injEq]
  apply BitVec.eq_of_toNat_eq
  simp

theorem bv_num {w n : Nat} : bvOf w (mkAV (.bv 0 w) n) = .ok (.ofNat w n) := by
  simp only [mkAV, bvOf, BV.ofNat_val, Except.ok.injEq]
  apply BitVec.eq_of_toNat_eq
  simp

/-- The members of the enums, from their codes. -/
def arithOf : Nat → ArithInst
  | 0 => .ADD
  | 1 => .SUB
  | 2 => .SLT
  | 3 => .SLTU
  | 4 => .AND
  | 5 => .OR
  | _ => .XOR
def shiftOf : Nat → ShiftInst
  | 0 => .SLL
  | 1 => .SRL
  | _ => .SRA
def branchOf : Nat → BranchInst
  | 0 => .BEQ
  | 1 => .BNE
  | 2 => .BLT
  | 4 => .BGE
  | 5 => .BGEU
  | _ => .BLTU
def loadOf : Nat → LoadInst
  | 0 => .LB
  | 1 => .LBU
  | 2 => .LH
  | 3 => .LHU
  | 4 => .LW
  | 5 => .LWU
  | _ => .LD

/-- An operation, from its option and code. -/
def aluOf (k : Key) (c : Nat) : AluInst := if k = kArith then .arith (arithOf c) else .shift (shiftOf c)

/-- The bits of an operation. -/
def aluCode (k : Key) (c : Nat) : Nat := rawCode aluT (.sum k (.leaf c))

/-- `k` is an option of `AluInst` and `c` fits. -/
def AluOk (k : Key) (c : Nat) : Prop := k = kArith ∧ c < 8 ∨ k = kShift ∧ c < 4

theorem arith_code (P : Process) (i : Nat) (hi : i < 7) (n : Nat) (hn : n < 8) : isMem P.asm (.auto (10 + i)) (mkAV arithT n) = .ok (n == i) := by
  have hw := arith_width
  have h := RG.isMem_code P (m := .auto (10 + i)) arith_wf (by
    have : i = 0 ∨ i = 1 ∨ i = 2 ∨ i = 3 ∨ i = 4 ∨ i = 5 ∨ i = 6 := by omega
    rcases this with rfl | rfl | rfl | rfl | rfl | rfl | rfl <;> simp) (n := n) (by show n < 2 ^ width arithT; rw [hw]; exact hn)
  rw [← arithT] at h
  rw [h]
  have e : encode arithT (.enum (.auto (10 + i))) = i := by
    have : i = 0 ∨ i = 1 ∨ i = 2 ∨ i = 3 ∨ i = 4 ∨ i = 5 ∨ i = 6 := by omega
    rcases this with rfl | rfl | rfl | rfl | rfl | rfl | rfl <;> decide +kernel
  rw [e]

theorem shift_code (P : Process) (i : Nat) (hi : i < 3) (n : Nat) (hn : n < 4) : isMem P.asm (.auto (20 + i)) (mkAV shiftT n) = .ok (n == i) := by
  have hw := shift_width
  have h := RG.isMem_code P (m := .auto (20 + i)) shift_wf (by
    have : i = 0 ∨ i = 1 ∨ i = 2 := by omega
    rcases this with rfl | rfl | rfl <;> simp) (n := n) (by show n < 2 ^ width shiftT; rw [hw]; exact hn)
  rw [← shiftT] at h
  rw [h]
  have e : encode shiftT (.enum (.auto (20 + i))) = i := by
    have : i = 0 ∨ i = 1 ∨ i = 2 := by omega
    rcases this with rfl | rfl | rfl <;> decide +kernel
  rw [e]

theorem branch_code (P : Process) (i : Nat) (hi : i < 6) (n : Nat) (hn : n < 8) : isMem P.asm (.auto (40 + i)) (mkAV branchT n) = .ok (n == i) := by
  have hw := branch_width
  have h := RG.isMem_code P (m := .auto (40 + i)) branch_wf (by
    have : i = 0 ∨ i = 1 ∨ i = 2 ∨ i = 3 ∨ i = 4 ∨ i = 5 := by omega
    rcases this with rfl | rfl | rfl | rfl | rfl | rfl <;> simp) (n := n) (by show n < 2 ^ width branchT; rw [hw]; exact hn)
  rw [← branchT] at h
  rw [h]
  have e : encode branchT (.enum (.auto (40 + i))) = i := by
    have : i = 0 ∨ i = 1 ∨ i = 2 ∨ i = 3 ∨ i = 4 ∨ i = 5 := by omega
    rcases this with rfl | rfl | rfl | rfl | rfl | rfl <;> decide +kernel
  rw [e]

/-! ## the ALU -/

theorem alu_mem : (kArith, arithT) ∈ (Fields.cons kArith arithT (.cons kShift shiftT .nil)).toList ∧ (kShift, shiftT) ∈ (Fields.cons kArith arithT (.cons kShift shiftT .nil)).toList := by
  simp [Fields.toList]

theorem arith_has {c : Nat} (h : c < 8) : RHas arithT (.leaf c) := by
  have := arith_width
  show c < 2 ^ width arithT
  rw [this]; exact h
theorem shift_has {c : Nat} (h : c < 4) : RHas shiftT (.leaf c) := by
  have := shift_width
  show c < 2 ^ width shiftT
  rw [this]; exact h

theorem alu_raw (P : Process) {k : Key} {c : Nat} (h : AluOk k c) (a b : Word) : alu P.asm (mkAV aluT (aluCode k c)) a b = .ok (RV.alu (aluOf k c) a b) := by
  have hwa := arith_width
  have hws := shift_width
  rcases h with ⟨rfl, hc⟩ | ⟨rfl, hc⟩
  · obtain ⟨h1, h2⟩ := RG.option_raw P (k := kArith) (t := arithT) (v := .leaf c) alu_wf alu_mem.1 (arith_has hc)
    obtain ⟨m, hm, h3⟩ := h2 kShift shiftT alu_mem.2 (by decide)
    rw [hws] at hm
    have e : rawCode arithT (.leaf c) = c := rfl
    rw [e] at h1
    have h1' : (mkAV aluT (aluCode kArith c)).getOption P.asm kArith = .ok (true, mkAV arithT c) := h1
    have h3' : (mkAV aluT (aluCode kArith c)).getOption P.asm kShift = .ok (false, mkAV shiftT m) := h3
    have b0 := arith_code P 0 (by decide) c hc
    have b1 := arith_code P 1 (by decide) c hc
    have b2 := arith_code P 2 (by decide) c hc
    have b3 := arith_code P 3 (by decide) c hc
    have b4 := arith_code P 4 (by decide) c hc
    have b5 := arith_code P 5 (by decide) c hc
    have s0 := shift_code P 0 (by decide) m hm
    have s1 := shift_code P 1 (by decide) m hm
    simp only [Nat.reduceAdd] at b0 b1 b2 b3 b4 b5 s0 s1
    simp only [alu, bind, Except.bind, h1', h3', b0, b1, b2, b3, b4, b5, s0, s1, if_true]
    have : c = 0 ∨ c = 1 ∨ c = 2 ∨ c = 3 ∨ c = 4 ∨ c = 5 ∨ c = 6 ∨ c = 7 := by omega
    rcases this with rfl | rfl | rfl | rfl | rfl | rfl | rfl | rfl <;> rfl
  · obtain ⟨h1, h2⟩ := RG.option_raw P (k := kShift) (t := shiftT) (v := .leaf c) alu_wf alu_mem.2 (shift_has hc)
    obtain ⟨m, hm, h3⟩ := h2 kArith arithT alu_mem.1 (by decide)
    rw [hwa] at hm
    have e : rawCode shiftT (.leaf c) = c := rfl
    rw [e] at h1
    have h1' : (mkAV aluT (aluCode kShift c)).getOption P.asm kShift = .ok (true, mkAV shiftT c) := h1
    have h3' : (mkAV aluT (aluCode kShift c)).getOption P.asm kArith = .ok (false, mkAV arithT m) := h3
    have b0 := arith_code P 0 (by decide) m hm
    have b1 := arith_code P 1 (by decide) m hm
    have b2 := arith_code P 2 (by decide) m hm
    have b3 := arith_code P 3 (by decide) m hm
    have b4 := arith_code P 4 (by decide) m hm
    have b5 := arith_code P 5 (by decide) m hm
    have s0 := shift_code P 0 (by decide) c hc
    have s1 := shift_code P 1 (by decide) c hc
    simp only [Nat.reduceAdd] at b0 b1 b2 b3 b4 b5 s0 s1
    simp only [alu, bind, Except.bind, h1', h3', b0, b1, b2, b3, b4, b5, s0, s1, Bool.false_eq_true, if_false]
    have : c = 0 ∨ c = 1 ∨ c = 2 ∨ c = 3 := by omega
    rcases this with rfl | rfl | rfl | rfl <;> rfl

theorem from_arith (P : Process) {a : Arg} {c : Nat} (hc : c < 8) (ha : AV.new P.asm arithT a = .ok (mkAV arithT c)) :
    AV.fromOption P.asm aluT kArith a none 0 = .ok (mkAV aluT (aluCode kArith c)) := by
  have hwa := arith_width
  have := RG.from_option P (c := 54) alu_wf alu_mem.1 (m := c) (by rw [hwa]; exact hc) ha (by decide) (by rw [hwa]; decide)
  exact this

theorem from_shift (P : Process) {a : Arg} {c : Nat} (hc : c < 4) (ha : AV.new P.asm shiftT a = .ok (mkAV shiftT c)) :
    AV.fromOption P.asm aluT kShift a none 0 = .ok (mkAV aluT (aluCode kShift c)) := by
  have hws := shift_width
  have := RG.from_option P (c := 54) alu_wf alu_mem.2 (m := c) (by rw [hws]; exact hc) ha (by decide) (by rw [hws]; decide)
  exact this

theorem exec_arith (P : Process) (i : Nat) (hi : i < 7) : execArith P.asm (.auto (10 + i)) = .ok (mkAV aluT (aluCode kArith i)) := by
  refine from_arith P (by omega) ?_
  have hh : arithT.Has (.enum (.auto (10 + i))) := by
    have : i = 0 ∨ i = 1 ∨ i = 2 ∨ i = 3 ∨ i = 4 ∨ i = 5 ∨ i = 6 := by omega
    rcases this with rfl | rfl | rfl | rfl | rfl | rfl | rfl <;> simp [arithT, Ty.Has]
  rw [new_raw P arith_wf hh]
  have e : encode arithT (.enum (.auto (10 + i))) = i := by
    have : i = 0 ∨ i = 1 ∨ i = 2 ∨ i = 3 ∨ i = 4 ∨ i = 5 ∨ i = 6 := by omega
    rcases this with rfl | rfl | rfl | rfl | rfl | rfl | rfl <;> decide +kernel
  rw [e]

/-! ## decoding -/

/-- The outputs of the two decoders are the same. -/
structure Same (d : Dec) (d' : RV.Dec) : Prop where
  a : d.a = d'.a
  b : d.b = d'.b
  rd : d.rd = d'.rd
  lsbMask : d.lsbMask = d'.lsbMask
  isBranch : d.isBranch = d'.isBranch
  isJump : d.isJump = d'.isJump
  branchOffset : d.branchOffset = d'.branchOffset
  cmpZero : d.cmpZero = d'.cmpZero
  invert : d.invert = d'.invert
  exec : ∃ k c, AluOk k c ∧ d.exec = mkAV aluT (aluCode k c) ∧ d'.exec = aluOf k c

/-- A raw value of the form of an instruction, as an instruction.  Codes that are not codes of members act as the last alternative of the simulator. -/
def ofRaw : RVal → Inst
  | .sum k v =>
    if k = oOP then match v with
      | .prod [.prod [.leaf rd, .leaf rs1, .leaf rs2], .sum t (.leaf c)] => .OP ⟨.ofNat 5 rd, .ofNat 5 rs1, .ofNat 5 rs2⟩ (aluOf t c)
      | _ => .LUI ⟨0, 0⟩
    else if k = oIMM then match v with
      | .sum t (.prod [.prod [.leaf rd, .leaf rs1, .leaf imm], .leaf c]) =>
        if t = kArith then .OP_IMM (.arith ⟨.ofNat 5 rd, .ofNat 5 rs1, .ofNat 12 imm⟩ (arithOf c)) else .OP_IMM (.shift ⟨.ofNat 5 rd, .ofNat 5 rs1, .ofNat 5 imm⟩ (shiftOf c))
      | _ => .LUI ⟨0, 0⟩
    else if k = oLUI then match v with
      | .prod [.prod [.leaf rd, .leaf imm]] => .LUI ⟨.ofNat 5 rd, .ofNat 20 imm⟩
      | _ => .LUI ⟨0, 0⟩
    else if k = oAUIPC then match v with
      | .prod [.prod [.leaf rd, .leaf imm]] => .AUIPC ⟨.ofNat 5 rd, .ofNat 20 imm⟩
      | _ => .LUI ⟨0, 0⟩
    else if k = oJAL then match v with
      | .prod [.prod [.leaf rd, .leaf imm]] => .JAL ⟨.ofNat 5 rd, .ofNat 20 imm⟩
      | _ => .LUI ⟨0, 0⟩
    else if k = oJALR then match v with
      | .prod [.prod [.leaf rd, .leaf rs1, .leaf imm]] => .JALR ⟨.ofNat 5 rd, .ofNat 5 rs1, .ofNat 12 imm⟩
      | _ => .LUI ⟨0, 0⟩
    else if k = oBranch then match v with
      | .prod [.prod [.leaf rs1, .leaf rs2, .leaf imm], .leaf c] => .Branch ⟨.ofNat 5 rs1, .ofNat 5 rs2, .ofNat 12 imm⟩ (branchOf c)
      | _ => .LUI ⟨0, 0⟩
    else if k = oLoad then match v with
      | .prod [.prod [.leaf rd, .leaf rs1, .leaf imm], .leaf c] => .Load ⟨.ofNat 5 rd, .ofNat 5 rs1, .ofNat 12 imm⟩ (loadOf c)
      | _ => .LUI ⟨0, 0⟩
    else match v with
      | .prod [.prod [.leaf rs1, .leaf rs2, .leaf imm], .leaf c] => .Store ⟨.ofNat 5 rs1, .ofNat 5 rs2, .ofNat 12 imm⟩ (loadOf c)
      | _ => .LUI ⟨0, 0⟩
  | _ => .LUI ⟨0, 0⟩

/-! ### every branch returns -/

/-- The operation is one of the ALU, with any bits. -/
def Fine (d : Dec) : Prop := ∃ m, m < 2 ^ width aluT ∧ d.exec = mkAV aluT m

theorem alu_code_lt {k : Key} {c : Nat} (h : AluOk k c) : aluCode k c < 2 ^ width aluT := by
  refine SB.code_lt _ _ alu_wf (RG.at_has alu_wf.2.1 (t := if k = kArith then arithT else shiftT) ?_ ?_)
  · rcases h with ⟨rfl, _⟩ | ⟨rfl, _⟩
    · exact alu_mem.1
    · exact alu_mem.2
  · rcases h with ⟨rfl, h⟩ | ⟨rfl, h⟩
    · exact arith_has h
    · exact shift_has h

theorem fine_arith {c : Nat} (h : c < 8) {d : Dec} (e : d.exec = mkAV aluT (aluCode kArith c)) : Fine d := ⟨_, alu_code_lt (.inl ⟨rfl, h⟩), e⟩
theorem fine_shift {c : Nat} (h : c < 4) {d : Dec} (e : d.exec = mkAV aluT (aluCode kShift c)) : Fine d := ⟨_, alu_code_lt (.inr ⟨rfl, h⟩), e⟩

section
variable (P : Process) (s : SmtRF) (pc : Word)

theorem any_op {m : Nat} (hm : m < 2 ^ width opT) : ∃ d, decOP P.asm s (mkAV opT m) = .ok d ∧ Fine d := by
  obtain ⟨m1, h1, g1⟩ := RG.get_any P (k := kData) (t := rT) op_wf hm (by simp [Fields.toList])
  obtain ⟨m2, h2, g2⟩ := RG.get_any P (k := kTag) (t := aluT) op_wf hm (by simp [Fields.toList])
  obtain ⟨m3, h3, g3⟩ := RG.get_any P (k := kRs1) (t := .bv 0 5) r_wf h1 (by simp [Fields.toList])
  obtain ⟨m4, h4, g4⟩ := RG.get_any P (k := kRs2) (t := .bv 0 5) r_wf h1 (by simp [Fields.toList])
  obtain ⟨m5, h5, g5⟩ := RG.get_any P (k := kRd) (t := .bv 0 5) r_wf h1 (by simp [Fields.toList])
  rw [← opT] at g1 g2
  rw [← rT] at g3 g4 g5
  simp only [decOP, bind, Except.bind, g1, g2, g3, g4, g5, idx_num, smtFile]
  exact ⟨_, rfl, m2, h2, rfl⟩

theorem any_immA {m : Nat} (hm : m < 2 ^ width immAT) : ∃ d, decImmA P.asm s (mkAV immAT m) = .ok d ∧ Fine d := by
  have hwa := arith_width
  obtain ⟨m1, h1, g1⟩ := RG.get_any P (k := kData) (t := iT) immA_wf hm (by simp [Fields.toList])
  obtain ⟨m2, h2, g2⟩ := RG.get_any P (k := kTag) (t := arithT) immA_wf hm (by simp [Fields.toList])
  obtain ⟨m3, h3, g3⟩ := RG.get_any P (k := kRs1) (t := .bv 0 5) i_wf h1 (by simp [Fields.toList])
  obtain ⟨m4, h4, g4⟩ := RG.get_any P (k := kImm) (t := .bv 0 12) i_wf h1 (by simp [Fields.toList])
  obtain ⟨m5, h5, g5⟩ := RG.get_any P (k := kRd) (t := .bv 0 5) i_wf h1 (by simp [Fields.toList])
  rw [← immAT] at g1 g2
  rw [← iT] at g3 g4 g5
  rw [hwa] at h2
  simp only [decImmA, bind, Except.bind, g1, g2, g3, g4, g5, idx_num, bv_num, smtFile, from_arith P h2 (new_asm P arith_wf m2)]
  exact ⟨_, rfl, fine_arith h2 rfl⟩

theorem any_immS {m : Nat} (hm : m < 2 ^ width immST) : ∃ d, decImmS P.asm s (mkAV immST m) = .ok d ∧ Fine d := by
  have hws := shift_width
  obtain ⟨m1, h1, g1⟩ := RG.get_any P (k := kData) (t := isT) immS_wf hm (by simp [Fields.toList])
  obtain ⟨m2, h2, g2⟩ := RG.get_any P (k := kTag) (t := shiftT) immS_wf hm (by simp [Fields.toList])
  obtain ⟨m3, h3, g3⟩ := RG.get_any P (k := kRs1) (t := .bv 0 5) is_wf h1 (by simp [Fields.toList])
  obtain ⟨m4, h4, g4⟩ := RG.get_any P (k := kImm) (t := .bv 0 5) is_wf h1 (by simp [Fields.toList])
  obtain ⟨m5, h5, g5⟩ := RG.get_any P (k := kRd) (t := .bv 0 5) is_wf h1 (by simp [Fields.toList])
  rw [← immST] at g1 g2
  rw [← isT] at g3 g4 g5
  rw [hws] at h2
  simp only [decImmS, bind, Except.bind, g1, g2, g3, g4, g5, idx_num, bv_num, smtFile, from_shift P h2 (new_asm P shift_wf m2)]
  exact ⟨_, rfl, fine_shift h2 rfl⟩

theorem any_imm {m : Nat} (hm : m < 2 ^ width immT) : ∃ d, decImm P.asm s (mkAV immT m) = .ok d ∧ Fine d := by
  obtain ⟨b1, m1, h1, g1⟩ := RG.option_any P (k := kArith) (t := immAT) imm_wf hm (by simp [Fields.toList])
  obtain ⟨b2, m2, h2, g2⟩ := RG.option_any P (k := kShift) (t := immST) imm_wf hm (by simp [Fields.toList])
  obtain ⟨d1, e1, k1⟩ := any_immA P s h1
  obtain ⟨d2, e2, k2⟩ := any_immS P s h2
  rw [← immT] at g1 g2
  simp only [decImm, bind, Except.bind, g1, g2, e1, e2]
  exact ⟨_, rfl, by split <;> assumption⟩

theorem any_lui {m : Nat} (hm : m < 2 ^ width luiT) : ∃ d, decLUI P.asm (mkAV luiT m) = .ok d ∧ Fine d := by
  obtain ⟨m1, h1, g1⟩ := RG.get_any P (k := kData) (t := uT) lui_wf hm (by simp [Fields.toList])
  obtain ⟨m4, h4, g4⟩ := RG.get_any P (k := kImm) (t := .bv 0 20) u_wf h1 (by simp [Fields.toList])
  obtain ⟨m5, h5, g5⟩ := RG.get_any P (k := kRd) (t := .bv 0 5) u_wf h1 (by simp [Fields.toList])
  rw [← luiT] at g1
  rw [← uT] at g4 g5
  have e := exec_arith P 0 (by decide)
  simp only [Nat.reduceAdd] at e
  simp only [decLUI, bind, Except.bind, g1, g4, g5, idx_num, bv_num, e]
  exact ⟨_, rfl, fine_arith (c := 0) (by decide) rfl⟩

theorem any_auipc {m : Nat} (hm : m < 2 ^ width auipcT) : ∃ d, decAUIPC P.asm pc (mkAV auipcT m) = .ok d ∧ Fine d := by
  obtain ⟨m1, h1, g1⟩ := RG.get_any P (k := kData) (t := uT) auipc_wf hm (by simp [Fields.toList])
  obtain ⟨m4, h4, g4⟩ := RG.get_any P (k := kImm) (t := .bv 0 20) u_wf h1 (by simp [Fields.toList])
  obtain ⟨m5, h5, g5⟩ := RG.get_any P (k := kRd) (t := .bv 0 5) u_wf h1 (by simp [Fields.toList])
  rw [← auipcT] at g1
  rw [← uT] at g4 g5
  have e := exec_arith P 0 (by decide)
  simp only [Nat.reduceAdd] at e
  simp only [decAUIPC, bind, Except.bind, g1, g4, g5, idx_num, bv_num, e]
  exact ⟨_, rfl, fine_arith (c := 0) (by decide) rfl⟩

theorem any_jal {m : Nat} (hm : m < 2 ^ width jalT) : ∃ d, decJAL P.asm pc (mkAV jalT m) = .ok d ∧ Fine d := by
  obtain ⟨m1, h1, g1⟩ := RG.get_any P (k := kData) (t := jT) jal_wf hm (by simp [Fields.toList])
  obtain ⟨m4, h4, g4⟩ := RG.get_any P (k := kImm) (t := .bv 0 20) j_wf h1 (by simp [Fields.toList])
  obtain ⟨m5, h5, g5⟩ := RG.get_any P (k := kRd) (t := .bv 0 5) j_wf h1 (by simp [Fields.toList])
  rw [← jalT] at g1
  rw [← jT] at g4 g5
  have e := exec_arith P 0 (by decide)
  simp only [Nat.reduceAdd] at e
  simp only [decJAL, bind, Except.bind, g1, g4, g5, idx_num, bv_num, e]
  exact ⟨_, rfl, fine_arith (c := 0) (by decide) rfl⟩

theorem any_jalr {m : Nat} (hm : m < 2 ^ width jalrT) : ∃ d, decJALR P.asm s (mkAV jalrT m) = .ok d ∧ Fine d := by
  obtain ⟨m1, h1, g1⟩ := RG.get_any P (k := kData) (t := iT) jalr_wf hm (by simp [Fields.toList])
  obtain ⟨m3, h3, g3⟩ := RG.get_any P (k := kRs1) (t := .bv 0 5) i_wf h1 (by simp [Fields.toList])
  obtain ⟨m4, h4, g4⟩ := RG.get_any P (k := kImm) (t := .bv 0 12) i_wf h1 (by simp [Fields.toList])
  obtain ⟨m5, h5, g5⟩ := RG.get_any P (k := kRd) (t := .bv 0 5) i_wf h1 (by simp [Fields.toList])
  rw [← jalrT] at g1
  rw [← iT] at g3 g4 g5
  have e := exec_arith P 0 (by decide)
  simp only [Nat.reduceAdd] at e
  simp only [decJALR, bind, Except.bind, g1, g3, g4, g5, idx_num, bv_num, e, smtFile]
  exact ⟨_, rfl, fine_arith (c := 0) (by decide) rfl⟩

theorem any_branch {m : Nat} (hm : m < 2 ^ width brT) : ∃ d, decBranch P.asm s (mkAV brT m) = .ok d ∧ Fine d := by
  have hwb := branch_width
  obtain ⟨m1, h1, g1⟩ := RG.get_any P (k := kData) (t := bT) br_wf hm (by simp [Fields.toList])
  obtain ⟨m2, h2, g2⟩ := RG.get_any P (k := kTag) (t := branchT) br_wf hm (by simp [Fields.toList])
  obtain ⟨m3, h3, g3⟩ := RG.get_any P (k := kRs1) (t := .bv 0 5) b_wf h1 (by simp [Fields.toList])
  obtain ⟨m4, h4, g4⟩ := RG.get_any P (k := kImm) (t := .bv 0 12) b_wf h1 (by simp [Fields.toList])
  obtain ⟨m5, h5, g5⟩ := RG.get_any P (k := kRs2) (t := .bv 0 5) b_wf h1 (by simp [Fields.toList])
  rw [hwb] at h2
  rw [← brT] at g1 g2
  rw [← bT] at g3 g4 g5
  have e2 := exec_arith P 2 (by decide)
  have e3 := exec_arith P 3 (by decide)
  have e6 := exec_arith P 6 (by decide)
  have t0 := branch_code P 0 (by decide) m2 h2
  have t1 := branch_code P 1 (by decide) m2 h2
  have t2 := branch_code P 2 (by decide) m2 h2
  have t4 := branch_code P 4 (by decide) m2 h2
  have t5 := branch_code P 5 (by decide) m2 h2
  simp only [Nat.reduceAdd] at e2 e3 e6 t0 t1 t2 t4 t5
  simp only [decBranch, bind, Except.bind, g1, g2, g3, g4, g5, idx_num, bv_num, e2, e3, e6, t0, t1, t2, t4, t5, smtFile]
  refine ⟨_, rfl, ?_⟩
  split
  · exact fine_arith (c := 6) (by decide) rfl
  · by_cases hs : ((m2 == 4) || (m2 == 2)) = true
    · exact fine_arith (c := 2) (by decide) (if_pos hs)
    · exact fine_arith (c := 3) (by decide) (if_neg hs)

theorem any_mem : ∃ d, decMem P.asm = .ok d ∧ Fine d := by
  have e := exec_arith P 0 (by decide)
  simp only [Nat.reduceAdd] at e
  simp only [decMem, bind, Except.bind, e]
  exact ⟨_, rfl, fine_arith (c := 0) (by decide) rfl⟩

/-! ### the branch of the instruction -/

theorem bv_leaf {c w : Nat} {v : RVal} (h : RHas (.bv c w) v) : ∃ n, v = .leaf n := by
  cases v <;> first | exact ⟨_, rfl⟩ | exact h.elim

theorem enum_leaf {c : Nat} {ms : List EVal} {v : RVal} (h : RHas (.enum c ms) v) : ∃ n, v = .leaf n ∧ n < 2 ^ width (.enum c ms) := by
  cases v <;> first | exact ⟨_, rfl, h⟩ | exact h.elim

theorem prod1 {c : Nat} {k : Key} {t : Ty} {v : RVal} (h : RHas (.prod c (.cons k t .nil)) v) : ∃ a, v = .prod [a] ∧ RHas t a := by
  cases v with
  | prod vs =>
    match vs, h with
    | [a], h => exact ⟨a, rfl, h.1⟩
    | _ :: _ :: _, h => exact h.2.elim
  | _ => exact h.elim

theorem prod2 {c : Nat} {k k' : Key} {t t' : Ty} {v : RVal} (h : RHas (.prod c (.cons k t (.cons k' t' .nil))) v) : ∃ a b, v = .prod [a, b] ∧ RHas t a ∧ RHas t' b := by
  cases v with
  | prod vs =>
    match vs, h with
    | [a, b], h => exact ⟨a, b, rfl, h.1, h.2.1⟩
    | [_], h => exact h.2.elim
    | _ :: _ :: _ :: _, h => exact h.2.2.elim
  | _ => exact h.elim

theorem prod3 {c : Nat} {k k' k'' : Key} {t t' t'' : Ty} {v : RVal} (h : RHas (.prod c (.cons k t (.cons k' t' (.cons k'' t'' .nil)))) v) :
    ∃ a b c, v = .prod [a, b, c] ∧ RHas t a ∧ RHas t' b ∧ RHas t'' c := by
  cases v with
  | prod vs =>
    match vs, h with
    | [a, b, c], h => exact ⟨a, b, c, rfl, h.1, h.2.1, h.2.2.1⟩
    | [_], h => exact h.2.elim
    | [_, _], h => exact h.2.2.elim
    | _ :: _ :: _ :: _ :: _, h => exact h.2.2.2.elim
  | _ => exact h.elim

theorem leaves3 {c c1 c2 c3 w1 w2 w3 : Nat} {k k' k'' : Key} {v : RVal} (h : RHas (.prod c (.cons k (.bv c1 w1) (.cons k' (.bv c2 w2) (.cons k'' (.bv c3 w3) .nil)))) v) :
    ∃ a b c, v = .prod [.leaf a, .leaf b, .leaf c] := by
  obtain ⟨a, b, c, rfl, h1, h2, h3⟩ := prod3 h
  obtain ⟨_, rfl⟩ := bv_leaf h1
  obtain ⟨_, rfl⟩ := bv_leaf h2
  obtain ⟨_, rfl⟩ := bv_leaf h3
  exact ⟨_, _, _, rfl⟩

theorem leaves2 {c c1 c2 w1 w2 : Nat} {k k' : Key} {v : RVal} (h : RHas (.prod c (.cons k (.bv c1 w1) (.cons k' (.bv c2 w2) .nil))) v) :
    ∃ a b, v = .prod [.leaf a, .leaf b] := by
  obtain ⟨a, b, rfl, h1, h2⟩ := prod2 h
  obtain ⟨_, rfl⟩ := bv_leaf h1
  obtain ⟨_, rfl⟩ := bv_leaf h2
  exact ⟨_, _, rfl⟩

theorem alu_leaf {v : RVal} (h : RHas aluT v) : ∃ k c, v = .sum k (.leaf c) ∧ AluOk k c := by
  have hwa := arith_width
  have hws := shift_width
  cases v with
  | sum k v =>
    obtain ⟨t, ht, hv⟩ := RG.has_at h
    simp only [Fields.toList, List.mem_cons, Prod.mk.injEq, List.not_mem_nil, or_false] at ht
    rcases ht with ⟨rfl, rfl⟩ | ⟨rfl, rfl⟩
    · obtain ⟨n, rfl, hn⟩ := enum_leaf hv
      rw [← arithT, hwa] at hn
      exact ⟨_, _, rfl, .inl ⟨rfl, hn⟩⟩
    · obtain ⟨n, rfl, hn⟩ := enum_leaf hv
      rw [← shiftT, hws] at hn
      exact ⟨_, _, rfl, .inr ⟨rfl, hn⟩⟩
  | _ => exact h.elim

/-- What the model on instructions decodes. -/
abbrev rvDecode (i : Inst) : Except Err RV.Dec := RV.decode (smtFile.load1 s) (smtFile.load2 s) false pc i

theorem dec_op {v : RVal} (h : RHas opT v) : ∃ d d', decOP P.asm s (mkAV opT (rawCode opT v)) = .ok d ∧ rvDecode s pc (ofRaw (.sum oOP v)) = .ok d' ∧ Same d d' := by
  obtain ⟨x, y, rfl, hx, hy⟩ := prod2 h
  obtain ⟨a, b, c, rfl⟩ := leaves3 hx
  obtain ⟨k, n, rfl, hk⟩ := alu_leaf hy
  have gx := RG.get_raw P (k := kData) op_wf h (.head _)
  have gy := RG.get_raw P (k := kTag) op_wf h (.tail _ (.head _))
  rw [← opT] at gx gy
  have gd := RG.get_raw P (k := kRd) r_wf hx (.head _)
  have g1 := RG.get_raw P (k := kRs1) r_wf hx (.tail _ (.head _))
  have g2 := RG.get_raw P (k := kRs2) r_wf hx (.tail _ (.tail _ (.head _)))
  rw [← rT] at gd g1 g2
  have e1 : ∀ w n, rawCode (.bv 0 w) (.leaf n) = n := fun _ _ => rfl
  rw [e1] at gd g1 g2
  refine ⟨_, _, by simp only [decOP, bind, Except.bind, gx, gy, gd, g1, g2, idx_num, bv_num, smtFile]; rfl, rfl, ⟨rfl, rfl, rfl, rfl, rfl, rfl, rfl, rfl, rfl, k, n, hk, rfl, rfl⟩⟩

theorem dec_immA {v : RVal} (h : RHas immAT v) : ∃ d d', decImmA P.asm s (mkAV immAT (rawCode immAT v)) = .ok d ∧ rvDecode s pc (ofRaw (.sum oIMM (.sum kArith v))) = .ok d' ∧ Same d d' := by
  obtain ⟨x, y, rfl, hx, hy⟩ := prod2 h
  obtain ⟨a, b, c, rfl⟩ := leaves3 hx
  obtain ⟨n, rfl, hn⟩ := enum_leaf hy
  rw [← arithT, arith_width] at hn
  have gx := RG.get_raw P (k := kData) immA_wf h (.head _)
  have gy := RG.get_raw P (k := kTag) immA_wf h (.tail _ (.head _))
  rw [← immAT] at gx gy
  have gd := RG.get_raw P (k := kRd) i_wf hx (.head _)
  have g1 := RG.get_raw P (k := kRs1) i_wf hx (.tail _ (.head _))
  have gi := RG.get_raw P (k := kImm) i_wf hx (.tail _ (.tail _ (.head _)))
  rw [← iT] at gd g1 gi
  have e1 : ∀ w n, rawCode (.bv 0 w) (.leaf n) = n := fun _ _ => rfl
  rw [e1] at gd g1 gi
  have e2 : rawCode arithT (.leaf n) = n := rfl
  rw [e2] at gy
  refine ⟨_, _, by simp only [decImmA, bind, Except.bind, gx, gy, gd, g1, gi, idx_num, bv_num, smtFile, from_arith P hn (new_asm P arith_wf n)]; rfl, rfl, ⟨rfl, rfl, rfl, rfl, rfl, rfl, rfl, rfl, rfl, kArith, n, .inl ⟨rfl, hn⟩, rfl, rfl⟩⟩

theorem dec_immS {v : RVal} (h : RHas immST v) : ∃ d d', decImmS P.asm s (mkAV immST (rawCode immST v)) = .ok d ∧ rvDecode s pc (ofRaw (.sum oIMM (.sum kShift v))) = .ok d' ∧ Same d d' := by
  obtain ⟨x, y, rfl, hx, hy⟩ := prod2 h
  obtain ⟨a, b, c, rfl⟩ := leaves3 hx
  obtain ⟨n, rfl, hn⟩ := enum_leaf hy
  rw [← shiftT, shift_width] at hn
  have gx := RG.get_raw P (k := kData) immS_wf h (.head _)
  have gy := RG.get_raw P (k := kTag) immS_wf h (.tail _ (.head _))
  rw [← immST] at gx gy
  have gd := RG.get_raw P (k := kRd) is_wf hx (.head _)
  have g1 := RG.get_raw P (k := kRs1) is_wf hx (.tail _ (.head _))
  have gi := RG.get_raw P (k := kImm) is_wf hx (.tail _ (.tail _ (.head _)))
  rw [← isT] at gd g1 gi
  have e1 : ∀ w n, rawCode (.bv 0 w) (.leaf n) = n := fun _ _ => rfl
  rw [e1] at gd g1 gi
  have e2 : rawCode shiftT (.leaf n) = n := rfl
  rw [e2] at gy
  refine ⟨_, _, by simp only [decImmS, bind, Except.bind, gx, gy, gd, g1, gi, idx_num, bv_num, smtFile, from_shift P hn (new_asm P shift_wf n)]; rfl, rfl, ⟨rfl, rfl, rfl, rfl, rfl, rfl, rfl, rfl, rfl, kShift, n, .inr ⟨rfl, hn⟩, rfl, rfl⟩⟩

theorem dec_lui {v : RVal} (h : RHas luiT v) : ∃ d d', decLUI P.asm (mkAV luiT (rawCode luiT v)) = .ok d ∧ rvDecode s pc (ofRaw (.sum oLUI v)) = .ok d' ∧ Same d d' := by
  obtain ⟨x, rfl, hx⟩ := prod1 h
  obtain ⟨a, b, rfl⟩ := leaves2 hx
  have gx := RG.get_raw P (k := kData) lui_wf h (.head _)
  rw [← luiT] at gx
  have gd := RG.get_raw P (k := kRd) u_wf hx (.head _)
  have gi := RG.get_raw P (k := kImm) u_wf hx (.tail _ (.head _))
  rw [← uT] at gd gi
  have e1 : ∀ w n, rawCode (.bv 0 w) (.leaf n) = n := fun _ _ => rfl
  rw [e1] at gd gi
  have e := exec_arith P 0 (by decide)
  simp only [Nat.reduceAdd] at e
  refine ⟨_, _, by simp only [decLUI, bind, Except.bind, gx, gd, gi, idx_num, bv_num, smtFile, e]; rfl, rfl, ⟨rfl, rfl, rfl, rfl, rfl, rfl, rfl, rfl, rfl, kArith, 0, .inl ⟨rfl, by decide⟩, rfl, rfl⟩⟩

theorem dec_auipc {v : RVal} (h : RHas auipcT v) : ∃ d d', decAUIPC P.asm pc (mkAV auipcT (rawCode auipcT v)) = .ok d ∧ rvDecode s pc (ofRaw (.sum oAUIPC v)) = .ok d' ∧ Same d d' := by
  obtain ⟨x, rfl, hx⟩ := prod1 h
  obtain ⟨a, b, rfl⟩ := leaves2 hx
  have gx := RG.get_raw P (k := kData) auipc_wf h (.head _)
  rw [← auipcT] at gx
  have gd := RG.get_raw P (k := kRd) u_wf hx (.head _)
  have gi := RG.get_raw P (k := kImm) u_wf hx (.tail _ (.head _))
  rw [← uT] at gd gi
  have e1 : ∀ w n, rawCode (.bv 0 w) (.leaf n) = n := fun _ _ => rfl
  rw [e1] at gd gi
  have e := exec_arith P 0 (by decide)
  simp only [Nat.reduceAdd] at e
  refine ⟨_, _, by simp only [decAUIPC, bind, Except.bind, gx, gd, gi, idx_num, bv_num, smtFile, e]; rfl, rfl, ⟨rfl, rfl, rfl, rfl, rfl, rfl, rfl, rfl, rfl, kArith, 0, .inl ⟨rfl, by decide⟩, rfl, rfl⟩⟩

theorem dec_jal {v : RVal} (h : RHas jalT v) : ∃ d d', decJAL P.asm pc (mkAV jalT (rawCode jalT v)) = .ok d ∧ rvDecode s pc (ofRaw (.sum oJAL v)) = .ok d' ∧ Same d d' := by
  obtain ⟨x, rfl, hx⟩ := prod1 h
  obtain ⟨a, b, rfl⟩ := leaves2 hx
  have gx := RG.get_raw P (k := kData) jal_wf h (.head _)
  rw [← jalT] at gx
  have gd := RG.get_raw P (k := kRd) j_wf hx (.head _)
  have gi := RG.get_raw P (k := kImm) j_wf hx (.tail _ (.head _))
  rw [← jT] at gd gi
  have e1 : ∀ w n, rawCode (.bv 0 w) (.leaf n) = n := fun _ _ => rfl
  rw [e1] at gd gi
  have e := exec_arith P 0 (by decide)
  simp only [Nat.reduceAdd] at e
  refine ⟨_, _, by simp only [decJAL, bind, Except.bind, gx, gd, gi, idx_num, bv_num, smtFile, e]; rfl, rfl, ⟨rfl, rfl, rfl, rfl, rfl, rfl, rfl, rfl, rfl, kArith, 0, .inl ⟨rfl, by decide⟩, rfl, rfl⟩⟩

theorem dec_jalr {v : RVal} (h : RHas jalrT v) : ∃ d d', decJALR P.asm s (mkAV jalrT (rawCode jalrT v)) = .ok d ∧ rvDecode s pc (ofRaw (.sum oJALR v)) = .ok d' ∧ Same d d' := by
  obtain ⟨x, rfl, hx⟩ := prod1 h
  obtain ⟨a, b, c, rfl⟩ := leaves3 hx
  have gx := RG.get_raw P (k := kData) jalr_wf h (.head _)
  rw [← jalrT] at gx
  have gd := RG.get_raw P (k := kRd) i_wf hx (.head _)
  have g1 := RG.get_raw P (k := kRs1) i_wf hx (.tail _ (.head _))
  have gi := RG.get_raw P (k := kImm) i_wf hx (.tail _ (.tail _ (.head _)))
  rw [← iT] at gd g1 gi
  have e1 : ∀ w n, rawCode (.bv 0 w) (.leaf n) = n := fun _ _ => rfl
  rw [e1] at gd g1 gi
  have e := exec_arith P 0 (by decide)
  simp only [Nat.reduceAdd] at e
  refine ⟨_, _, by simp only [decJALR, bind, Except.bind, gx, gd, g1, gi, idx_num, bv_num, smtFile, e]; rfl, rfl, ⟨rfl, rfl, rfl, rfl, rfl, rfl, rfl, rfl, rfl, kArith, 0, .inl ⟨rfl, by decide⟩, rfl, rfl⟩⟩

theorem dec_branch {v : RVal} (h : RHas brT v) : ∃ d d', decBranch P.asm s (mkAV brT (rawCode brT v)) = .ok d ∧ rvDecode s pc (ofRaw (.sum oBranch v)) = .ok d' ∧ Same d d' := by
  obtain ⟨x, y, rfl, hx, hy⟩ := prod2 h
  obtain ⟨a, b, c, rfl⟩ := leaves3 hx
  obtain ⟨n, rfl, hn⟩ := enum_leaf hy
  rw [← branchT, branch_width] at hn
  have gx := RG.get_raw P (k := kData) br_wf h (.head _)
  have gy := RG.get_raw P (k := kTag) br_wf h (.tail _ (.head _))
  rw [← brT] at gx gy
  have g1 := RG.get_raw P (k := kRs1) b_wf hx (.head _)
  have g2 := RG.get_raw P (k := kRs2) b_wf hx (.tail _ (.head _))
  have gi := RG.get_raw P (k := kImm) b_wf hx (.tail _ (.tail _ (.head _)))
  rw [← bT] at g1 g2 gi
  have e1 : ∀ w n, rawCode (.bv 0 w) (.leaf n) = n := fun _ _ => rfl
  rw [e1] at g1 g2 gi
  have e2 : rawCode branchT (.leaf n) = n := rfl
  rw [e2] at gy
  have x2 := exec_arith P 2 (by decide)
  have x3 := exec_arith P 3 (by decide)
  have x6 := exec_arith P 6 (by decide)
  have t0 := branch_code P 0 (by decide) n hn
  have t1 := branch_code P 1 (by decide) n hn
  have t2 := branch_code P 2 (by decide) n hn
  have t4 := branch_code P 4 (by decide) n hn
  have t5 := branch_code P 5 (by decide) n hn
  simp only [Nat.reduceAdd] at x2 x3 x6 t0 t1 t2 t4 t5
  have : n = 0 ∨ n = 1 ∨ n = 2 ∨ n = 3 ∨ n = 4 ∨ n = 5 ∨ n = 6 ∨ n = 7 := by omega
  have ce : ∀ (q : Nat), q < 7 → AluOk kArith q := fun q hq => .inl ⟨rfl, by omega⟩
  rcases this with rfl | rfl | rfl | rfl | rfl | rfl | rfl | rfl
  · exact ⟨_, _, by simp only [decBranch, bind, Except.bind, gx, gy, g1, g2, gi, idx_num, bv_num, smtFile, x2, x3, x6, t0, t1, t2, t4, t5]; rfl, rfl, ⟨rfl, rfl, rfl, rfl, rfl, rfl, rfl, rfl, rfl, kArith, 6, ce 6 (by decide), rfl, rfl⟩⟩
  · exact ⟨_, _, by simp only [decBranch, bind, Except.bind, gx, gy, g1, g2, gi, idx_num, bv_num, smtFile, x2, x3, x6, t0, t1, t2, t4, t5]; rfl, rfl, ⟨rfl, rfl, rfl, rfl, rfl, rfl, rfl, rfl, rfl, kArith, 6, ce 6 (by decide), rfl, rfl⟩⟩
  · exact ⟨_, _, by simp only [decBranch, bind, Except.bind, gx, gy, g1, g2, gi, idx_num, bv_num, smtFile, x2, x3, x6, t0, t1, t2, t4, t5]; rfl, rfl, ⟨rfl, rfl, rfl, rfl, rfl, rfl, rfl, rfl, rfl, kArith, 2, ce 2 (by decide), rfl, rfl⟩⟩
  · exact ⟨_, _, by simp only [decBranch, bind, Except.bind, gx, gy, g1, g2, gi, idx_num, bv_num, smtFile, x2, x3, x6, t0, t1, t2, t4, t5]; rfl, rfl, ⟨rfl, rfl, rfl, rfl, rfl, rfl, rfl, rfl, rfl, kArith, 3, ce 3 (by decide), rfl, rfl⟩⟩
  · exact ⟨_, _, by simp only [decBranch, bind, Except.bind, gx, gy, g1, g2, gi, idx_num, bv_num, smtFile, x2, x3, x6, t0, t1, t2, t4, t5]; rfl, rfl, ⟨rfl, rfl, rfl, rfl, rfl, rfl, rfl, rfl, rfl, kArith, 2, ce 2 (by decide), rfl, rfl⟩⟩
  · exact ⟨_, _, by simp only [decBranch, bind, Except.bind, gx, gy, g1, g2, gi, idx_num, bv_num, smtFile, x2, x3, x6, t0, t1, t2, t4, t5]; rfl, rfl, ⟨rfl, rfl, rfl, rfl, rfl, rfl, rfl, rfl, rfl, kArith, 3, ce 3 (by decide), rfl, rfl⟩⟩
  · exact ⟨_, _, by simp only [decBranch, bind, Except.bind, gx, gy, g1, g2, gi, idx_num, bv_num, smtFile, x2, x3, x6, t0, t1, t2, t4, t5]; rfl, rfl, ⟨rfl, rfl, rfl, rfl, rfl, rfl, rfl, rfl, rfl, kArith, 3, ce 3 (by decide), rfl, rfl⟩⟩
  · exact ⟨_, _, by simp only [decBranch, bind, Except.bind, gx, gy, g1, g2, gi, idx_num, bv_num, smtFile, x2, x3, x6, t0, t1, t2, t4, t5]; rfl, rfl, ⟨rfl, rfl, rfl, rfl, rfl, rfl, rfl, rfl, rfl, kArith, 3, ce 3 (by decide), rfl, rfl⟩⟩

theorem dec_imm {v : RVal} (h : RHas immT v) : ∃ d d', decImm P.asm s (mkAV immT (rawCode immT v)) = .ok d ∧ rvDecode s pc (ofRaw (.sum oIMM v)) = .ok d' ∧ Same d d' := by
  cases v with
  | sum k v =>
    obtain ⟨t, ht, hv⟩ := RG.has_at h
    have ht' := ht
    simp only [Fields.toList, List.mem_cons, Prod.mk.injEq, List.not_mem_nil, or_false] at ht'
    rcases ht' with ⟨rfl, rfl⟩ | ⟨rfl, rfl⟩
    · obtain ⟨g1, g2⟩ := RG.option_raw P imm_wf ht hv
      obtain ⟨m, hm, g2⟩ := g2 kShift immST (by simp [Fields.toList]) (by decide)
      obtain ⟨d, d', e1, e2, hs⟩ := dec_immA P s pc hv
      obtain ⟨d2, e3, _⟩ := any_immS P s hm
      rw [← immT] at g1 g2
      exact ⟨d, d', by simp only [decImm, bind, Except.bind, g1, g2, e1, e3, if_true], e2, hs⟩
    · obtain ⟨g1, g2⟩ := RG.option_raw P imm_wf ht hv
      obtain ⟨m, hm, g2⟩ := g2 kArith immAT (by simp [Fields.toList]) (by decide)
      obtain ⟨d, d', e1, e2, hs⟩ := dec_immS P s pc hv
      obtain ⟨d2, e3, _⟩ := any_immA P s hm
      rw [← immT] at g1 g2
      exact ⟨d, d', by simp only [decImm, bind, Except.bind, g1, g2, e1, e3, Bool.false_eq_true, if_false], e2, hs⟩
  | _ => exact h.elim

theorem dec_mem {v : RVal} (h : RHas ldT v) : ∃ d d', decMem P.asm = .ok d ∧ rvDecode s pc (ofRaw (.sum oLoad v)) = .ok d' ∧ Same d d' := by
  obtain ⟨x, y, rfl, hx, hy⟩ := prod2 h
  obtain ⟨a, b, c, rfl⟩ := leaves3 hx
  obtain ⟨n, rfl, hn⟩ := enum_leaf hy
  have e := exec_arith P 0 (by decide)
  simp only [Nat.reduceAdd] at e
  exact ⟨_, _, by simp only [decMem, bind, Except.bind, e]; rfl, rfl, ⟨rfl, rfl, rfl, rfl, rfl, rfl, rfl, rfl, rfl, kArith, 0, .inl ⟨rfl, by decide⟩, rfl, rfl⟩⟩

theorem dec_store {v : RVal} (h : RHas stT v) : ∃ d d', decMem P.asm = .ok d ∧ rvDecode s pc (ofRaw (.sum oStore v)) = .ok d' ∧ Same d d' := by
  obtain ⟨x, y, rfl, hx, hy⟩ := prod2 h
  obtain ⟨a, b, c, rfl⟩ := leaves3 hx
  obtain ⟨n, rfl, hn⟩ := enum_leaf hy
  have e := exec_arith P 0 (by decide)
  simp only [Nat.reduceAdd] at e
  exact ⟨_, _, by simp only [decMem, bind, Except.bind, e]; rfl, rfl, ⟨rfl, rfl, rfl, rfl, rfl, rfl, rfl, rfl, rfl, kArith, 0, .inl ⟨rfl, by decide⟩, rfl, rfl⟩⟩

/-- Reading option `k'` of an instruction with option `k`. -/
theorem pick {opts : Fields} (ho : opts.toList.Perm options) {k k' : Key} {t t' : Ty} {v : RVal} (hk : (k, t) ∈ options) (hk' : (k', t') ∈ options) (hv : RHas t v) :
    ∃ m, m < 2 ^ width t' ∧ (mkAV (instT opts) (rawCode (instT opts) (.sum k v))).getOption P.asm k' = .ok (decide (k' = k), mkAV t' m) ∧ (k' = k → t' = t ∧ m = rawCode t v) := by
  have hw := inst_wf ho
  have h1 := ho.mem_iff.2 hk
  have h2 := ho.mem_iff.2 hk'
  obtain ⟨g1, g2⟩ := RG.option_raw P hw h1 hv
  by_cases e : k' = k
  · subst e
    have et : t' = t := by
      have hn := hw.2.1
      obtain ⟨i, hi⟩ := List.getElem?_of_mem h2
      obtain ⟨j, hj⟩ := List.getElem?_of_mem h1
      have e1 := optionIndex_of_get hn hi
      have e2 := optionIndex_of_get hn hj
      have : i = j := e1.symm.trans e2
      rw [this, hj] at hi
      cases hi; rfl
    subst et
    exact ⟨_, SB.code_lt _ _ (option_wf hk) hv, by simpa [instT] using g1, fun _ => ⟨rfl, rfl⟩⟩
  · obtain ⟨m, hm, g⟩ := g2 k' t' h2 e
    exact ⟨m, hm, by simpa [instT, e] using g, fun h => absurd h e⟩

theorem decode_of {opts : Fields} (ho : opts.toList.Perm options) {r : RVal} (hr : RHas (instT opts) r) :
    ∃ d d', decode P.asm s pc (mkAV (instT opts) (rawCode (instT opts) r)) = .ok d ∧ rvDecode s pc (ofRaw r) = .ok d' ∧ Same d d' := by
  cases r with
  | sum k v =>
    obtain ⟨t, ht, hv⟩ := RG.has_at hr
    have hk := ho.mem_iff.1 ht
    obtain ⟨m0, h0, g0, f0⟩ := pick P ho hk (k' := oOP) (t' := opT) (by simp [options]) hv
    obtain ⟨d0, e0, _⟩ := any_op P s h0
    obtain ⟨m1, h1, g1, f1⟩ := pick P ho hk (k' := oIMM) (t' := immT) (by simp [options]) hv
    obtain ⟨d1, e1, _⟩ := any_imm P s h1
    obtain ⟨m2, h2, g2, f2⟩ := pick P ho hk (k' := oLUI) (t' := luiT) (by simp [options]) hv
    obtain ⟨d2, e2, _⟩ := any_lui P h2
    obtain ⟨m3, h3, g3, f3⟩ := pick P ho hk (k' := oAUIPC) (t' := auipcT) (by simp [options]) hv
    obtain ⟨d3, e3, _⟩ := any_auipc P pc h3
    obtain ⟨m4, h4, g4, f4⟩ := pick P ho hk (k' := oJAL) (t' := jalT) (by simp [options]) hv
    obtain ⟨d4, e4, _⟩ := any_jal P pc h4
    obtain ⟨m5, h5, g5, f5⟩ := pick P ho hk (k' := oJALR) (t' := jalrT) (by simp [options]) hv
    obtain ⟨d5, e5, _⟩ := any_jalr P s h5
    obtain ⟨m6, h6, g6, f6⟩ := pick P ho hk (k' := oBranch) (t' := brT) (by simp [options]) hv
    obtain ⟨d6, e6, _⟩ := any_branch P s h6
    obtain ⟨m7, h7, g7, f7⟩ := pick P ho hk (k' := oLoad) (t' := ldT) (by simp [options]) hv
    obtain ⟨d7, e7, _⟩ := any_mem P
    have hk2 := hk
    simp only [options, List.mem_cons, Prod.mk.injEq, List.not_mem_nil, or_false] at hk2
    rcases hk2 with ⟨rfl, rfl⟩ | ⟨rfl, rfl⟩ | ⟨rfl, rfl⟩ | ⟨rfl, rfl⟩ | ⟨rfl, rfl⟩ | ⟨rfl, rfl⟩ | ⟨rfl, rfl⟩ | ⟨rfl, rfl⟩ | ⟨rfl, rfl⟩
    · obtain ⟨d, d', q1, q2, q3⟩ := dec_op P s pc hv
      rw [(f0 rfl).2] at g0
      exact ⟨d, d', by simp only [decode, bind, Except.bind, g0, g1, g2, g3, g4, g5, g6, g7, q1, e1, e2, e3, e4, e5, e6, e7]; rfl, q2, q3⟩
    · obtain ⟨d, d', q1, q2, q3⟩ := dec_imm P s pc hv
      rw [(f1 rfl).2] at g1
      exact ⟨d, d', by simp only [decode, bind, Except.bind, g0, g1, g2, g3, g4, g5, g6, g7, e0, q1, e2, e3, e4, e5, e6, e7]; rfl, q2, q3⟩
    · obtain ⟨d, d', q1, q2, q3⟩ := dec_lui P s pc hv
      rw [(f2 rfl).2] at g2
      exact ⟨d, d', by simp only [decode, bind, Except.bind, g0, g1, g2, g3, g4, g5, g6, g7, e0, e1, q1, e3, e4, e5, e6, e7]; rfl, q2, q3⟩
    · obtain ⟨d, d', q1, q2, q3⟩ := dec_auipc P s pc hv
      rw [(f3 rfl).2] at g3
      exact ⟨d, d', by simp only [decode, bind, Except.bind, g0, g1, g2, g3, g4, g5, g6, g7, e0, e1, e2, q1, e4, e5, e6, e7]; rfl, q2, q3⟩
    · obtain ⟨d, d', q1, q2, q3⟩ := dec_jal P s pc hv
      rw [(f4 rfl).2] at g4
      exact ⟨d, d', by simp only [decode, bind, Except.bind, g0, g1, g2, g3, g4, g5, g6, g7, e0, e1, e2, e3, q1, e5, e6, e7]; rfl, q2, q3⟩
    · obtain ⟨d, d', q1, q2, q3⟩ := dec_jalr P s pc hv
      rw [(f5 rfl).2] at g5
      exact ⟨d, d', by simp only [decode, bind, Except.bind, g0, g1, g2, g3, g4, g5, g6, g7, e0, e1, e2, e3, e4, q1, e6, e7]; rfl, q2, q3⟩
    · obtain ⟨d, d', q1, q2, q3⟩ := dec_branch P s pc hv
      rw [(f6 rfl).2] at g6
      exact ⟨d, d', by simp only [decode, bind, Except.bind, g0, g1, g2, g3, g4, g5, g6, g7, e0, e1, e2, e3, e4, e5, q1, e7]; rfl, q2, q3⟩
    · obtain ⟨d, d', q1, q2, q3⟩ := dec_mem P s pc hv
      exact ⟨d, d', by simp only [decode, bind, Except.bind, g0, g1, g2, g3, g4, g5, g6, g7, e0, e1, e2, e3, e4, e5, e6, q1]; rfl, q2, q3⟩
    · obtain ⟨d, d', q1, q2, q3⟩ := dec_store P s pc hv
      exact ⟨d, d', by simp only [decode, bind, Except.bind, g0, g1, g2, g3, g4, g5, g6, g7, e0, e1, e2, e3, e4, e5, e6, q1]; rfl, q2, q3⟩
  | _ => exact hr.elim

end

theorem alu_any (P : Process) {m : Nat} (hm : m < 2 ^ width aluT) (a b : Word) : ∃ w, alu P.asm (mkAV aluT m) a b = .ok w := by
  obtain ⟨b1, n1, h1, g1⟩ := RG.option_any P (k := kArith) (t := arithT) alu_wf hm (by simp [Fields.toList])
  obtain ⟨b2, n2, h2, g2⟩ := RG.option_any P (k := kShift) (t := shiftT) alu_wf hm (by simp [Fields.toList])
  rw [← aluT] at g1 g2
  rw [arith_width] at h1
  rw [shift_width] at h2
  have a0 := arith_code P 0 (by decide) n1 h1
  have a1 := arith_code P 1 (by decide) n1 h1
  have a2 := arith_code P 2 (by decide) n1 h1
  have a3 := arith_code P 3 (by decide) n1 h1
  have a4 := arith_code P 4 (by decide) n1 h1
  have a5 := arith_code P 5 (by decide) n1 h1
  have s0 := shift_code P 0 (by decide) n2 h2
  have s1 := shift_code P 1 (by decide) n2 h2
  simp only [Nat.reduceAdd] at a0 a1 a2 a3 a4 a5 s0 s1
  simp only [alu, bind, Except.bind, g1, g2, a0, a1, a2, a3, a4, a5, s0, s1]
  exact ⟨_, rfl⟩

/-- The call returns whatever the bits of the instruction are. -/
theorem call_any (P : Process) {opts : Fields} (ho : opts.toList.Perm options) {n : Nat} (hn : n < 2 ^ width (instT opts)) (pc rs1 rs2 rd : Word) :
    ∃ p r, smtCall P.asm (mkAV (instT opts) n) pc rs1 rs2 rd = .ok (p, r) := by
  have hw := inst_wf ho
  have hd : ∃ d, decode P.asm ⟨rs1, rs2, rd⟩ pc (mkAV (instT opts) n) = .ok d ∧ Fine d := by
    have op : ∀ k t, (k, t) ∈ options → ∃ b m, m < 2 ^ width t ∧ (mkAV (instT opts) n).getOption P.asm k = .ok (b, mkAV t m) := fun k t h => RG.option_any P hw hn (ho.mem_iff.2 h)
    obtain ⟨b0, m0, h0, g0⟩ := op oOP opT (by simp [options])
    obtain ⟨b1, m1, h1, g1⟩ := op oIMM immT (by simp [options])
    obtain ⟨b2, m2, h2, g2⟩ := op oLUI luiT (by simp [options])
    obtain ⟨b3, m3, h3, g3⟩ := op oAUIPC auipcT (by simp [options])
    obtain ⟨b4, m4, h4, g4⟩ := op oJAL jalT (by simp [options])
    obtain ⟨b5, m5, h5, g5⟩ := op oJALR jalrT (by simp [options])
    obtain ⟨b6, m6, h6, g6⟩ := op oBranch brT (by simp [options])
    obtain ⟨b7, m7, h7, g7⟩ := op oLoad ldT (by simp [options])
    obtain ⟨d0, e0, k0⟩ := any_op P ⟨rs1, rs2, rd⟩ h0
    obtain ⟨d1, e1, k1⟩ := any_imm P ⟨rs1, rs2, rd⟩ h1
    obtain ⟨d2, e2, k2⟩ := any_lui P h2
    obtain ⟨d3, e3, k3⟩ := any_auipc P pc h3
    obtain ⟨d4, e4, k4⟩ := any_jal P pc h4
    obtain ⟨d5, e5, k5⟩ := any_jalr P ⟨rs1, rs2, rd⟩ h5
    obtain ⟨d6, e6, k6⟩ := any_branch P ⟨rs1, rs2, rd⟩ h6
    obtain ⟨d7, e7, k7⟩ := any_mem P
    refine ⟨_, by simp only [decode, bind, Except.bind, g0, g1, g2, g3, g4, g5, g6, g7, e0, e1, e2, e3, e4, e5, e6, e7]; rfl, ?_⟩
    cases b0 <;> cases b1 <;> cases b2 <;> cases b3 <;> cases b4 <;> cases b5 <;> cases b6 <;> cases b7 <;> assumption
  obtain ⟨d, e, m, hm, he⟩ := hd
  obtain ⟨w, hx⟩ := alu_any P hm d.a d.b
  rw [← he] at hx
  simp only [smtCall, bind, Except.bind, e, hx]
  exact ⟨_, _, rfl⟩

/-- `R32I_mappable` on an assembled instruction computes what it computes on the instruction with these fields. -/
theorem call_of (P : Process) {opts : Fields} (ho : opts.toList.Perm options) {r : RVal} (hr : RHas (instT opts) r) (pc rs1 rs2 rd : Word) :
    smtCall P.asm (mkAV (instT opts) (rawCode (instT opts) r)) pc rs1 rs2 rd = RV.mappable (ofRaw r) pc rs1 rs2 rd := by
  obtain ⟨d, d', h1, h2, hs⟩ := decode_of P ⟨rs1, rs2, rd⟩ pc ho hr
  obtain ⟨k, c, hk, h3, h4⟩ := hs.exec
  have h5 := alu_raw P hk d.a d.b
  rw [← h3] at h5
  have h2' : RV.decode (smtFile.load1 ⟨rs1, rs2, rd⟩) (smtFile.load2 ⟨rs1, rs2, rd⟩) false pc (ofRaw r) = .ok d' := h2
  simp only [smtCall, RV.mappable, RV.call, bind, Except.bind, pure, Except.pure, h1, h2', h5, Bool.false_and, Bool.false_eq_true, if_false, RV.commit, h4, ← hs.a, ← hs.b, ← hs.rd, ← hs.lsbMask,
    ← hs.isBranch, ← hs.isJump, ← hs.branchOffset, ← hs.cmpZero, ← hs.invert]
  cases d.isBranch <;> cases d.isJump <;> simp

end Peak.RMap
