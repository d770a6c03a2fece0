import Verif.Model.RegPe
/-!
# `R32I_mappable_fc.SMT` (examples/riscv/sim.py) as an architecture of the mapper

The simulator on an assembled instruction, for `tests/test_aadt_mapping.py: test_riscv_rr`.  `Model/RiscV.lean` has the same code on instructions as Python objects.
-/

namespace Peak.RMap
open Peak
open Peak.RV (Word Idx SmtRF smtFile sext zext bvshl bvlshr bvashr bitWord)
open Peak.RPe (isMem idxOf)

/-! ## names -/

/-- Field names of the layouts, and `data` and `tag` (isa.py:21-56, 106-153). -/
def kRd : Key := 0
/-- `rs1`: examples/riscv/isa.py:23. -/
def kRs1 : Key := 1
/-- `rs2`: examples/riscv/isa.py:24. -/
def kRs2 : Key := 2
/-- `imm`: examples/riscv/isa.py:29. -/
def kImm : Key := 3
/-- `data`: examples/riscv/isa.py:107. -/
def kData : Key := 4
/-- `tag`: examples/riscv/isa.py:108. -/
def kTag : Key := 5

/-- `arith`, `shift` (isa.py:76-78, 121-123). -/
def kArith : Key := 0
/-- `shift`: examples/riscv/isa.py:78, 123. -/
def kShift : Key := 1

/-- The options of `Inst` (isa.py:157). -/
def oOP : Key := 0
/-- The option `OP_IMM`: examples/riscv/isa.py:157. -/
def oIMM : Key := 1
/-- The option `LUI`: examples/riscv/isa.py:157. -/
def oLUI : Key := 2
/-- The option `AUIPC`: examples/riscv/isa.py:157. -/
def oAUIPC : Key := 3
/-- The option `JAL`: examples/riscv/isa.py:157. -/
def oJAL : Key := 4
/-- The option `JALR`: examples/riscv/isa.py:157. -/
def oJALR : Key := 5
/-- The option `Branch`: examples/riscv/isa.py:157. -/
def oBranch : Key := 6
/-- The option `Load`: examples/riscv/isa.py:157. -/
def oLoad : Key := 7
/-- The option `Store`: examples/riscv/isa.py:157. -/
def oStore : Key := 8

/-! ## types -/

/-- `ArithInst` (isa.py:60-67): all members are `Enum.Auto()`. -/
def arithT : Ty := .enum 50 [.auto 10, .auto 11, .auto 12, .auto 13, .auto 14, .auto 15, .auto 16]

/-- `ShiftInst` (isa.py:69-72). -/
def shiftT : Ty := .enum 51 [.auto 20, .auto 21, .auto 22]

/-- `LoadInst` (isa.py:86-93). -/
def loadT : Ty := .enum 52 [.auto 30, .auto 31, .auto 32, .auto 33, .auto 34, .auto 35, .auto 36]

/-- `BranchInst` (isa.py:95-101). -/
def branchT : Ty := .enum 53 [.auto 40, .auto 41, .auto 42, .auto 43, .auto 44, .auto 45]

/-- `AluInst` (isa.py:76-78). -/
def aluT : Ty := .sum 54 (.cons kArith arithT (.cons kShift shiftT .nil))

/-- The layouts (isa.py:21-56). -/
def rT : Ty := .prod 55 (.cons kRd (.bv 0 5) (.cons kRs1 (.bv 0 5) (.cons kRs2 (.bv 0 5) .nil)))
/-- `I`: examples/riscv/isa.py:26-29. -/
def iT : Ty := .prod 56 (.cons kRd (.bv 0 5) (.cons kRs1 (.bv 0 5) (.cons kImm (.bv 0 12) .nil)))
/-- `Is`: examples/riscv/isa.py:35-38. -/
def isT : Ty := .prod 57 (.cons kRd (.bv 0 5) (.cons kRs1 (.bv 0 5) (.cons kImm (.bv 0 5) .nil)))
/-- `S`: examples/riscv/isa.py:40-43. -/
def sT : Ty := .prod 58 (.cons kRs1 (.bv 0 5) (.cons kRs2 (.bv 0 5) (.cons kImm (.bv 0 12) .nil)))
/-- `U`: examples/riscv/isa.py:45-47. -/
def uT : Ty := .prod 59 (.cons kRd (.bv 0 5) (.cons kImm (.bv 0 20) .nil))
/-- `B`: examples/riscv/isa.py:49-52. -/
def bT : Ty := .prod 60 (.cons kRs1 (.bv 0 5) (.cons kRs2 (.bv 0 5) (.cons kImm (.bv 0 12) .nil)))
/-- `J`: examples/riscv/isa.py:54-56. -/
def jT : Ty := .prod 61 (.cons kRd (.bv 0 5) (.cons kImm (.bv 0 20) .nil))

/-- `OP` (isa.py:106-108). -/
def opT : Ty := .prod 62 (.cons kData rT (.cons kTag aluT .nil))

/-- `OP_IMM_A`, `OP_IMM_S`, `OP_IMM` (isa.py:110-123). -/
def immAT : Ty := .prod 63 (.cons kData iT (.cons kTag arithT .nil))
/-- `OP_IMM_S`: examples/riscv/isa.py:114-116. -/
def immST : Ty := .prod 64 (.cons kData isT (.cons kTag shiftT .nil))
/-- `OP_IMM`: examples/riscv/isa.py:121-123. -/
def immT : Ty := .sum 65 (.cons kArith immAT (.cons kShift immST .nil))

/-- `LUI`, `AUIPC`, `JAL`, `JALR` (isa.py:128-141). -/
def luiT : Ty := .prod 66 (.cons kData uT .nil)
/-- `AUIPC`: examples/riscv/isa.py:132-133. -/
def auipcT : Ty := .prod 67 (.cons kData uT .nil)
/-- `JAL`: examples/riscv/isa.py:137-138. -/
def jalT : Ty := .prod 68 (.cons kData jT .nil)
/-- `JALR`: examples/riscv/isa.py:140-141. -/
def jalrT : Ty := .prod 69 (.cons kData iT .nil)

/-- `Branch`, `Load`, `Store` (isa.py:143-153). -/
def brT : Ty := .prod 70 (.cons kData bT (.cons kTag branchT .nil))
/-- `Load`: examples/riscv/isa.py:147-149. -/
def ldT : Ty := .prod 71 (.cons kData iT (.cons kTag loadT .nil))
/-- `Store`, whose tag is a `LoadInst`: examples/riscv/isa.py:151-153. -/
def stT : Ty := .prod 72 (.cons kData sT (.cons kTag loadT .nil))

/-- The options of `Inst` with their types (examples/riscv/isa.py:157). -/
def options : List (Key × Ty) :=
  [(oOP, opT), (oIMM, immT), (oLUI, luiT), (oAUIPC, auipcT), (oJAL, jalT), (oJALR, jalrT), (oBranch, brT), (oLoad, ldT), (oStore, stT)]

/-- `Inst` (isa.py:157).  The fields of a `Sum` are a set and its tags follow a sorted order (assembler_util.py), which is left open: `opts` lists the options in any order. -/
def instT (opts : Fields) : Ty := .sum 73 opts

/-! ## instructions as values -/

/-- A vector as a value of `Model/Types.lean` (hwtypes; the fields of examples/riscv/isa.py:21-56). -/
def bvVal {w : Nat} (x : BitVec w) : Val := .bits (BV.ofNat w x.toNat)

/-- The members of the enums, in the order of their definitions (isa.py:60-101). -/
def arithMem : RV.ArithInst → EVal
  | .ADD => .auto 10
  | .SUB => .auto 11
  | .SLT => .auto 12
  | .SLTU => .auto 13
  | .AND => .auto 14
  | .OR => .auto 15
  | .XOR => .auto 16
/-- The members of `ShiftInst`: examples/riscv/isa.py:69-72. -/
def shiftMem : RV.ShiftInst → EVal
  | .SLL => .auto 20
  | .SRL => .auto 21
  | .SRA => .auto 22
/-- The members of `LoadInst`: examples/riscv/isa.py:86-93. -/
def loadMem : RV.LoadInst → EVal
  | .LB => .auto 30
  | .LBU => .auto 31
  | .LH => .auto 32
  | .LHU => .auto 33
  | .LW => .auto 34
  | .LWU => .auto 35
  | .LD => .auto 36
/-- The members of `BranchInst`: examples/riscv/isa.py:95-101. -/
def branchMem : RV.BranchInst → EVal
  | .BEQ => .auto 40
  | .BNE => .auto 41
  | .BLT => .auto 42
  | .BLTU => .auto 43
  | .BGE => .auto 44
  | .BGEU => .auto 45
/-- A value of `AluInst`: examples/riscv/isa.py:76-78. -/
def aluVal : RV.AluInst → Val
  | .arith t => .sum kArith (.enum (arithMem t))
  | .shift t => .sum kShift (.enum (shiftMem t))

/-- An instruction as a value of the type `Inst` (isa.py:21-157). -/
def instVal : RV.Inst → Val
  | .OP d t => .sum oOP (.prod [.prod [bvVal d.rd, bvVal d.rs1, bvVal d.rs2], aluVal t])
  | .OP_IMM (.arith d t) => .sum oIMM (.sum kArith (.prod [.prod [bvVal d.rd, bvVal d.rs1, bvVal d.imm], .enum (arithMem t)]))
  | .OP_IMM (.shift d t) => .sum oIMM (.sum kShift (.prod [.prod [bvVal d.rd, bvVal d.rs1, bvVal d.imm], .enum (shiftMem t)]))
  | .LUI d => .sum oLUI (.prod [.prod [bvVal d.rd, bvVal d.imm]])
  | .AUIPC d => .sum oAUIPC (.prod [.prod [bvVal d.rd, bvVal d.imm]])
  | .JAL d => .sum oJAL (.prod [.prod [bvVal d.rd, bvVal d.imm]])
  | .JALR d => .sum oJALR (.prod [.prod [bvVal d.rd, bvVal d.rs1, bvVal d.imm]])
  | .Branch d t => .sum oBranch (.prod [.prod [bvVal d.rs1, bvVal d.rs2, bvVal d.imm], .enum (branchMem t)])
  | .Load d t => .sum oLoad (.prod [.prod [bvVal d.rd, bvVal d.rs1, bvVal d.imm], .enum (loadMem t)])
  | .Store d t => .sum oStore (.prod [.prod [bvVal d.rs1, bvVal d.rs2, bvVal d.imm], .enum (loadMem t)])

/-! ## the simulator -/

/-- A vector of width `w` (the fields of examples/riscv/isa.py:21-56). -/
def bvOf (w : Nat) : AV → Except Err (BitVec w)
  | .bits b => .ok (.ofNat w b.val)
  | _ => .error .typeError

/-- The outputs of the decode stage, with their defaults (sim.py:38-49). -/
structure Dec where
  a : Word
  b : Word
  exec : AV
  rd : Idx := 0
  lsbMask : Word := BitVec.ofInt 32 (-1)
  isBranch : Bool := false
  isJump : Bool := false
  branchOffset : Word := 0
  cmpZero : Bool := false
  invert : Bool := false

/-- `ExecInst(arith=isa.ArithInst.m)`: `ExecInst` is `from_fields` of the assembled `AluInst` (sim.py:25; peak/family.py:112-113). -/
def execArith (A : Ty → Except Err AsmObj) (m : EVal) : Except Err AV := AV.fromOption A aluT kArith (.raw (.enum m)) none 0

/-- sim.py:51-56 -/
def decOP (A : Ty → Except Err AsmObj) (s : SmtRF) (x : AV) : Except Err Dec := do
  let data ← x.get A kData
  let a ← smtFile.load1 s (← (← data.get A kRs1) |> idxOf)
  let b ← smtFile.load2 s (← (← data.get A kRs2) |> idxOf)
  let exec ← x.get A kTag
  let rd ← (← data.get A kRd) |> idxOf
  .ok { a := a, b := b, exec := exec, rd := rd }

/-- sim.py:58-71, without the assertion (66; family.py:46). -/
def decImmA (A : Ty → Except Err AsmObj) (s : SmtRF) (x : AV) : Except Err Dec := do
  let data ← x.get A kData
  let a ← smtFile.load1 s (← (← data.get A kRs1) |> idxOf)
  let imm ← (← data.get A kImm) |> bvOf 12
  let exec ← AV.fromOption A aluT kArith (.asm (← x.get A kTag)) none 0
  let rd ← (← data.get A kRd) |> idxOf
  .ok { a := a, b := sext imm 20, exec := exec, rd := rd }

/-- sim.py:73-79 -/
def decImmS (A : Ty → Except Err AsmObj) (s : SmtRF) (x : AV) : Except Err Dec := do
  let data ← x.get A kData
  let a ← smtFile.load1 s (← (← data.get A kRs1) |> idxOf)
  let imm ← (← data.get A kImm) |> bvOf 5
  let exec ← AV.fromOption A aluT kShift (.asm (← x.get A kTag)) none 0
  let rd ← (← data.get A kRd) |> idxOf
  .ok { a := a, b := zext imm 27, exec := exec, rd := rd }

/-- sim.py:58-79: both branches are evaluated, then one is chosen. -/
def decImm (A : Ty → Except Err AsmObj) (s : SmtRF) (x : AV) : Except Err Dec := do
  let ar ← x.getOption A kArith
  let d0 ← decImmA A s ar.2
  let sh ← x.getOption A kShift
  let d1 ← decImmS A s sh.2
  .ok (if ar.1 then d0 else d1)

/-- sim.py:81-86 -/
def decLUI (A : Ty → Except Err AsmObj) (x : AV) : Except Err Dec := do
  let data ← x.get A kData
  let imm ← (← data.get A kImm) |> bvOf 20
  let rd ← (← data.get A kRd) |> idxOf
  let exec ← execArith A (.auto 10)
  .ok { a := 0, b := bvshl (sext imm 12) 12, exec := exec, rd := rd }

/-- sim.py:88-93 -/
def decAUIPC (A : Ty → Except Err AsmObj) (pc : Word) (x : AV) : Except Err Dec := do
  let data ← x.get A kData
  let imm ← (← data.get A kImm) |> bvOf 20
  let rd ← (← data.get A kRd) |> idxOf
  let exec ← execArith A (.auto 10)
  .ok { a := pc, b := bvshl (sext imm 12) 12, exec := exec, rd := rd }

/-- sim.py:95-101 -/
def decJAL (A : Ty → Except Err AsmObj) (pc : Word) (x : AV) : Except Err Dec := do
  let data ← x.get A kData
  let imm ← (← data.get A kImm) |> bvOf 20
  let rd ← (← data.get A kRd) |> idxOf
  let exec ← execArith A (.auto 10)
  .ok { a := pc, b := bvshl (sext imm 12) 1, exec := exec, rd := rd, isJump := true }

/-- sim.py:103-110 -/
def decJALR (A : Ty → Except Err AsmObj) (s : SmtRF) (x : AV) : Except Err Dec := do
  let data ← x.get A kData
  let a ← smtFile.load1 s (← (← data.get A kRs1) |> idxOf)
  let imm ← (← data.get A kImm) |> bvOf 12
  let rd ← (← data.get A kRd) |> idxOf
  let exec ← execArith A (.auto 10)
  .ok { a := a, b := sext imm 20, exec := exec, rd := rd, isJump := true, lsbMask := ~~~1 }

/-- sim.py:112-140 -/
def decBranch (A : Ty → Except Err AsmObj) (s : SmtRF) (x : AV) : Except Err Dec := do
  let data ← x.get A kData
  let a ← smtFile.load1 s (← (← data.get A kRs1) |> idxOf)
  let b ← smtFile.load2 s (← (← data.get A kRs2) |> idxOf)
  let imm ← (← data.get A kImm) |> bvOf 12
  let tag ← x.get A kTag
  let isEq ← isMem A (.auto 40) tag
  let isNe ← isMem A (.auto 41) tag
  let isBge ← isMem A (.auto 44) tag
  let isBlt ← isMem A (.auto 42) tag
  let isBgeu ← isMem A (.auto 45) tag
  let isSigned := isBge || isBlt
  let cmpGe := isBge || isBgeu
  let eXor ← execArith A (.auto 16)
  let eSlt ← execArith A (.auto 12)
  let eSltu ← execArith A (.auto 13)
  let offset := bvshl (sext imm 20) 1
  .ok (if isEq || isNe then { a := a, b := b, exec := eXor, isBranch := true, branchOffset := offset, cmpZero := true, invert := isNe }
    else { a := a, b := b, exec := if isSigned then eSlt else eSltu, isBranch := true, branchOffset := offset, invert := cmpGe })

/-- sim.py:142-145 and 146-150: the options `Load` and `Store` are not read further. -/
def decMem (A : Ty → Except Err AsmObj) : Except Err Dec := do
  let exec ← execArith A (.auto 10)
  .ok { a := 0, b := 0, exec := exec }

/-- Decode (sim.py:41-150).  `family.assemble` turns the `if` statements into choices between the values of all branches and drops the asserts (ast_tools, not modelled). -/
def decode (A : Ty → Except Err AsmObj) (s : SmtRF) (pc : Word) (inst : AV) : Except Err Dec := do
  let op ← inst.getOption A oOP
  let dOP ← decOP A s op.2
  let imm ← inst.getOption A oIMM
  let dIMM ← decImm A s imm.2
  let lui ← inst.getOption A oLUI
  let dLUI ← decLUI A lui.2
  let auipc ← inst.getOption A oAUIPC
  let dAUIPC ← decAUIPC A pc auipc.2
  let jal ← inst.getOption A oJAL
  let dJAL ← decJAL A pc jal.2
  let jalr ← inst.getOption A oJALR
  let dJALR ← decJALR A s jalr.2
  let br ← inst.getOption A oBranch
  let dBranch ← decBranch A s br.2
  let ld ← inst.getOption A oLoad
  let dLoad ← decMem A
  let dStore ← decMem A
  .ok (if op.1 then dOP else if imm.1 then dIMM else if lui.1 then dLUI else if auipc.1 then dAUIPC else if jal.1 then dJAL
    else if jalr.1 then dJALR else if br.1 then dBranch else if ld.1 then dLoad else dStore)

/-- The ALU (sim.py:158-184). -/
def alu (A : Ty → Except Err AsmObj) (exec : AV) (a b : Word) : Except Err Word := do
  let ar ← exec.getOption A kArith
  let isAdd ← isMem A (.auto 10) ar.2
  let isSub ← isMem A (.auto 11) ar.2
  let isSlt ← isMem A (.auto 12) ar.2
  let isSltu ← isMem A (.auto 13) ar.2
  let isAnd ← isMem A (.auto 14) ar.2
  let isOr ← isMem A (.auto 15) ar.2
  let c0 := if isAdd then a + b else if isSub then a - b else if isSlt then bitWord (a.slt b) else if isSltu then bitWord (a.ult b)
    else if isAnd then a &&& b else if isOr then a ||| b else a ^^^ b
  let sh ← exec.getOption A kShift
  let isSll ← isMem A (.auto 20) sh.2
  let isSrl ← isMem A (.auto 21) sh.2
  let c1 := if isSll then bvshl a b else if isSrl then bvlshr a b else bvashr a b
  .ok (if ar.1 then c0 else c1)

/-- `R32I_mappable.__call__` in the SMT family (sim.py:234-247 with 31-215): `pc_next` and `rd`. -/
def smtCall (A : Ty → Except Err AsmObj) (inst : AV) (pc rs1 rs2 rd : Word) : Except Err (Word × Word) := do
  let s : SmtRF := ⟨rs1, rs2, rd⟩                                         -- 243-245
  let d ← decode A s pc inst
  let branchTarget := pc + d.branchOffset                                 -- 157
  let c0 ← alu A d.exec d.a d.b
  let c := c0 &&& d.lsbMask                                               -- 186
  let pcNext := pc + 4                                                    -- 195
  let cond := if d.cmpZero then c == 0 else c.getLsbD 0                   -- 198-201
  let cond := cond ^^ d.invert                                            -- 203
  let out := if d.isBranch then 0 else if d.isJump then pcNext else c     -- 197, 208, 211
  let pcNext := if d.isBranch then (if cond then branchTarget else pcNext) else if d.isJump then c else pcNext   -- 204-209
  let s' := smtFile.store s d.rd out                                      -- 214
  .ok (pcNext, s'.rd)

/-- The inputs but `inst`: `pc`, `rs1`, `rs2`, `rd` (sim.py:236-239).  `PC(Word)`, `Word` and `Initial(Word)` are different types (see `RPe.dIn`). -/
def dIn : Fields := .cons 1 (.bv 2 32) (.cons 2 (.bv 0 32) (.cons 3 (.bv 0 32) (.cons 4 (.bv 1 32) .nil)))

/-- The outputs `pc_next` and `rd` (sim.py:233). -/
def dOut : Fields := .cons 0 (.bv 2 32) (.cons 1 (.bv 0 32) .nil)

/-- `R32I_mappable_fc.SMT` (sim.py:222-259).  An error is modelled by an output of the wrong shape, which the mapper rejects. -/
def pe (A : Ty → Except Err AsmObj) (opts : Fields) : PeakObj Nat Nat where
  inT := .prod 74 (.cons 0 (instT opts) dIn)
  outT := .prod 75 dOut
  bbs := []
  bbOutW := fun _ => [1]
  run := fun d _ => match d with
    | [(_, inst), (_, pc), (_, rs1), (_, rs2), (_, rd)] =>
      match smtCall A inst (wordOf 32 pc) (wordOf 32 rs1) (wordOf 32 rs2) (wordOf 32 rd) with
      | .ok (p, r) => ([.bits (BV.ofNat 32 p.toNat), .bits (BV.ofNat 32 r.toNat)], [])
      | .error _ => ([], [])
    | _ => ([], [])

/-- `ArchMapper(R32I_mappable_fc, family=family).process_ir_instruction(ir_fc)` (tests/test_aadt_mapping.py:482-484) for an instruction on `n` words: `inst` is `Const` (sim.py:235). -/
def problem (A : Ty → Except Err AsmObj) (opts : Fields) (enc : IEnc) (n : Nat) (f : List Word → Word) : MapPb Nat Nat where
  ir := wordIr 32 n f
  arch := pe A opts
  irConst := []
  archConst := [[0]]
  cons := []
  enc := enc

end Peak.RMap
