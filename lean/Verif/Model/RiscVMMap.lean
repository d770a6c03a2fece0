import Verif.Model.RiscVMap
import Verif.Model.RiscVM
/-!
# `R32I_mappable_fc.SMT` of examples/riscv_m as an architecture of the mapper

The files isa.py, sim.py and util.py cited here are those of examples/riscv_m.  The layouts and enums that are the same as in examples/riscv are those of `Model/RiscVMap.lean`.  The simulator
differs in the option `muldiv` of `AluInst`, and in that `pc` and `pc_next` are plain words, so that the mapper can use them.
-/

namespace Peak.RMM
open Peak
open Peak.RV (Word Idx SmtRF smtFile sext zext bvshl bvlshr bvashr bitWord high bvudiv bvurem smtOps)
open Peak.RPe (isMem idxOf)
open Peak.RMap (kRd kRs1 kRs2 kImm kData kTag kArith kShift oOP oIMM oLUI oAUIPC oJAL oJALR oBranch oLoad oStore arithT shiftT loadT branchT rT iT isT sT uT bT jT immAT immST immT luiT auipcT
  jalT jalrT brT ldT stT bvVal arithMem shiftMem loadMem branchMem bvOf Dec)

/-- `muldiv`: isa.py:91. -/
def kMulDiv : Key := 2

/-- `MulDivInst` (isa.py:75-83): all members are `Enum.Auto()`. -/
def mulDivT : Ty := .enum 76 [.auto 60, .auto 61, .auto 62, .auto 63, .auto 64, .auto 65, .auto 66, .auto 67]

/-- `AluInst` (isa.py:88-91). -/
def aluT : Ty := .sum 54 (.cons kArith arithT (.cons kShift shiftT (.cons kMulDiv mulDivT .nil)))

/-- `OP` (isa.py:119-121). -/
def opT : Ty := .prod 62 (.cons kData rT (.cons kTag aluT .nil))

/-- The options of `Inst` with their types (isa.py:170). -/
def options : List (Key × Ty) :=
  [(oOP, opT), (oIMM, immT), (oLUI, luiT), (oAUIPC, auipcT), (oJAL, jalT), (oJALR, jalrT), (oBranch, brT), (oLoad, ldT), (oStore, stT)]

/-- `Inst` (isa.py:170), with its options in any order (see `RMap.instT`). -/
def instT (opts : Fields) : Ty := .sum 73 opts

/-! ## instructions as values -/

/-- The members of `MulDivInst`: isa.py:75-83. -/
def mulDivMem : RV.MulDivInst → EVal
  | .MUL => .auto 60
  | .MULH => .auto 61
  | .MULHU => .auto 62
  | .MULHSU => .auto 63
  | .DIV => .auto 64
  | .DIVU => .auto 65
  | .REM => .auto 66
  | .REMU => .auto 67

/-- An instruction as a value of the type `Inst` (isa.py:21-170). -/
def instVal : RV.InstM → Val
  | .base i => RMap.instVal i
  | .muldiv d t => .sum oOP (.prod [.prod [bvVal d.rd, bvVal d.rs1, bvVal d.rs2], .sum kMulDiv (.enum (mulDivMem t))])

/-! ## the simulator -/

/-- `ExecInst(arith=isa.ArithInst.m)`: `ExecInst` is `from_fields` of the assembled `AluInst` (sim.py:21; peak/family.py:112-113). -/
def execArith (A : Ty → Except Err AsmObj) (m : EVal) : Except Err AV := AV.fromOption A aluT kArith (.raw (.enum m)) none 0

/-- sim.py:49-54 -/
def decOP (A : Ty → Except Err AsmObj) (s : SmtRF) (x : AV) : Except Err Dec := do
  let data ← x.get A kData
  let a ← smtFile.load1 s (← (← data.get A kRs1) |> idxOf)
  let b ← smtFile.load2 s (← (← data.get A kRs2) |> idxOf)
  let exec ← x.get A kTag
  let rd ← (← data.get A kRd) |> idxOf
  .ok { a := a, b := b, exec := exec, rd := rd }

/-- sim.py:56-68, without the assertion (64; family.py:46). -/
def decImmA (A : Ty → Except Err AsmObj) (s : SmtRF) (x : AV) : Except Err Dec := do
  let data ← x.get A kData
  let a ← smtFile.load1 s (← (← data.get A kRs1) |> idxOf)
  let imm ← (← data.get A kImm) |> bvOf 12
  let exec ← AV.fromOption A aluT kArith (.asm (← x.get A kTag)) none 0
  let rd ← (← data.get A kRd) |> idxOf
  .ok { a := a, b := sext imm 20, exec := exec, rd := rd }

/-- sim.py:70-76 -/
def decImmS (A : Ty → Except Err AsmObj) (s : SmtRF) (x : AV) : Except Err Dec := do
  let data ← x.get A kData
  let a ← smtFile.load1 s (← (← data.get A kRs1) |> idxOf)
  let imm ← (← data.get A kImm) |> bvOf 5
  let exec ← AV.fromOption A aluT kShift (.asm (← x.get A kTag)) none 0
  let rd ← (← data.get A kRd) |> idxOf
  .ok { a := a, b := zext imm 27, exec := exec, rd := rd }

/-- sim.py:56-76: both branches are evaluated, then one is chosen. -/
def decImm (A : Ty → Except Err AsmObj) (s : SmtRF) (x : AV) : Except Err Dec := do
  let ar ← x.getOption A kArith
  let d0 ← decImmA A s ar.2
  let sh ← x.getOption A kShift
  let d1 ← decImmS A s sh.2
  .ok (if ar.1 then d0 else d1)

/-- sim.py:78-83 -/
def decLUI (A : Ty → Except Err AsmObj) (x : AV) : Except Err Dec := do
  let data ← x.get A kData
  let imm ← (← data.get A kImm) |> bvOf 20
  let rd ← (← data.get A kRd) |> idxOf
  let exec ← execArith A (.auto 10)
  .ok { a := 0, b := bvshl (sext imm 12) 12, exec := exec, rd := rd }

/-- sim.py:85-90 -/
def decAUIPC (A : Ty → Except Err AsmObj) (pc : Word) (x : AV) : Except Err Dec := do
  let data ← x.get A kData
  let imm ← (← data.get A kImm) |> bvOf 20
  let rd ← (← data.get A kRd) |> idxOf
  let exec ← execArith A (.auto 10)
  .ok { a := pc, b := bvshl (sext imm 12) 12, exec := exec, rd := rd }

/-- sim.py:92-98 -/
def decJAL (A : Ty → Except Err AsmObj) (pc : Word) (x : AV) : Except Err Dec := do
  let data ← x.get A kData
  let imm ← (← data.get A kImm) |> bvOf 20
  let rd ← (← data.get A kRd) |> idxOf
  let exec ← execArith A (.auto 10)
  .ok { a := pc, b := bvshl (sext imm 12) 1, exec := exec, rd := rd, isJump := true }

/-- sim.py:100-107 -/
def decJALR (A : Ty → Except Err AsmObj) (s : SmtRF) (x : AV) : Except Err Dec := do
  let data ← x.get A kData
  let a ← smtFile.load1 s (← (← data.get A kRs1) |> idxOf)
  let imm ← (← data.get A kImm) |> bvOf 12
  let rd ← (← data.get A kRd) |> idxOf
  let exec ← execArith A (.auto 10)
  .ok { a := a, b := sext imm 20, exec := exec, rd := rd, isJump := true, lsbMask := ~~~1 }

/-- sim.py:109-137 -/
def decBranch (A : Ty → Except Err AsmObj) (s : SmtRF) (x : AV) : Except Err Dec := do
  let data ← x.get A kData
  let a ← smtFile.load1 s (← (← data.get A kRs1) |> idxOf)
  let b ← smtFile.load2 s (← (← data.get A kRs2) |> idxOf)
  let imm ← (← data.get A kImm) |> bvOf 12
  let tag ← x.get A kTag
  let isEq ← isMem A (.auto 40) tag
  let isNe ← isMem A (.auto 41) tag
  let isBge ← isMem A (.auto 44) tag
  let isBlt ← isMem A (.auto 42) tag
  let isBgeu ← isMem A (.auto 45) tag
  let isSigned := isBge || isBlt
  let cmpGe := isBge || isBgeu
  let eXor ← execArith A (.auto 16)
  let eSlt ← execArith A (.auto 12)
  let eSltu ← execArith A (.auto 13)
  let offset := bvshl (sext imm 20) 1
  .ok (if isEq || isNe then { a := a, b := b, exec := eXor, isBranch := true, branchOffset := offset, cmpZero := true, invert := isNe }
    else { a := a, b := b, exec := if isSigned then eSlt else eSltu, isBranch := true, branchOffset := offset, invert := cmpGe })

/-- sim.py:139-142 and 143-147: the options `Load` and `Store` are not read further. -/
def decMem (A : Ty → Except Err AsmObj) : Except Err Dec := do
  let exec ← execArith A (.auto 10)
  .ok { a := 0, b := 0, exec := exec }

/-- Decode (sim.py:39-147).  `family.assemble` turns the `if` statements into choices between the values of all branches and drops the asserts (ast_tools, not modelled). -/
def decode (A : Ty → Except Err AsmObj) (s : SmtRF) (pc : Word) (inst : AV) : Except Err Dec := do
  let op ← inst.getOption A oOP
  let dOP ← decOP A s op.2
  let imm ← inst.getOption A oIMM
  let dIMM ← decImm A s imm.2
  let lui ← inst.getOption A oLUI
  let dLUI ← decLUI A lui.2
  let auipc ← inst.getOption A oAUIPC
  let dAUIPC ← decAUIPC A pc auipc.2
  let jal ← inst.getOption A oJAL
  let dJAL ← decJAL A pc jal.2
  let jalr ← inst.getOption A oJALR
  let dJALR ← decJALR A s jalr.2
  let br ← inst.getOption A oBranch
  let dBranch ← decBranch A s br.2
  let ld ← inst.getOption A oLoad
  let dLoad ← decMem A
  let dStore ← decMem A
  .ok (if op.1 then dOP else if imm.1 then dIMM else if lui.1 then dLUI else if auipc.1 then dAUIPC else if jal.1 then dJAL
    else if jalr.1 then dJALR else if br.1 then dBranch else if ld.1 then dLoad else dStore)

/-- The ALU (sim.py:155-200). -/
def alu (A : Ty → Except Err AsmObj) (exec : AV) (a b : Word) : Except Err Word := do
  let ar ← exec.getOption A kArith
  let isAdd ← isMem A (.auto 10) ar.2
  let isSub ← isMem A (.auto 11) ar.2
  let isSlt ← isMem A (.auto 12) ar.2
  let isSltu ← isMem A (.auto 13) ar.2
  let isAnd ← isMem A (.auto 14) ar.2
  let isOr ← isMem A (.auto 15) ar.2
  let c0 := if isAdd then a + b else if isSub then a - b else if isSlt then bitWord (a.slt b) else if isSltu then bitWord (a.ult b)
    else if isAnd then a &&& b else if isOr then a ||| b else a ^^^ b
  let sh ← exec.getOption A kShift
  let isSll ← isMem A (.auto 20) sh.2
  let isSrl ← isMem A (.auto 21) sh.2
  let c1 := if isSll then bvshl a b else if isSrl then bvlshr a b else bvashr a b
  let md ← exec.getOption A kMulDiv
  let isMul ← isMem A (.auto 60) md.2
  let isMulh ← isMem A (.auto 61) md.2
  let isMulhu ← isMem A (.auto 62) md.2
  let isMulhsu ← isMem A (.auto 63) md.2
  let isDiv ← isMem A (.auto 64) md.2
  let isDivu ← isMem A (.auto 65) md.2
  let isRem ← isMem A (.auto 66) md.2
  let c2 := if isMul then a * b else if isMulh then high (sext a 32 * sext b 32) else if isMulhu then high (zext a 32 * zext b 32)
    else if isMulhsu then high (sext a 32 * zext b 32) else if isDiv then smtOps.bvsdiv a b else if isDivu then bvudiv a b
    else if isRem then smtOps.bvsrem a b else bvurem a b
  .ok (if ar.1 then c0 else if sh.1 then c1 else c2)

/-- `R32I_mappable.__call__` in the SMT family (sim.py:250-262 with 29-233): `pc_next` and `rd`. -/
def smtCall (A : Ty → Except Err AsmObj) (inst : AV) (pc rs1 rs2 rd : Word) : Except Err (Word × Word) := do
  let s : SmtRF := ⟨rs1, rs2, rd⟩                                         -- 258-260
  let d ← decode A s pc inst
  let branchTarget := pc + d.branchOffset                                 -- 154
  let c0 ← alu A d.exec d.a d.b
  let c := c0 &&& d.lsbMask                                               -- 204
  let pcNext := pc + 4                                                    -- 213
  let cond := if d.cmpZero then c == 0 else c.getLsbD 0                   -- 216-219
  let cond := cond ^^ d.invert                                            -- 221
  let out := if d.isBranch then 0 else if d.isJump then pcNext else c     -- 215, 226, 229
  let pcNext := if d.isBranch then (if cond then branchTarget else pcNext) else if d.isJump then c else pcNext   -- 222-227
  let s' := smtFile.store s d.rd out                                      -- 232
  .ok (pcNext, s'.rd)

/-- The inputs but `inst`: `pc`, `rs1`, `rs2`, `rd` (sim.py:252-255).  Here `pc` is a plain `Word`, and only `Initial(Word)` is another type (util.py). -/
def dIn : Fields := .cons 1 (.bv 0 32) (.cons 2 (.bv 0 32) (.cons 3 (.bv 0 32) (.cons 4 (.bv 1 32) .nil)))

/-- The outputs `pc_next` and `rd`, both a `Word` (sim.py:249). -/
def dOut : Fields := .cons 0 (.bv 0 32) (.cons 1 (.bv 0 32) .nil)

/-- `R32I_mappable_fc.SMT` (sim.py:237-273).  An error is modelled by an output of the wrong shape, which the mapper rejects. -/
def pe (A : Ty → Except Err AsmObj) (opts : Fields) : PeakObj Nat Nat where
  inT := .prod 74 (.cons 0 (instT opts) dIn)
  outT := .prod 75 dOut
  bbs := []
  bbOutW := fun _ => [1]
  run := fun d _ => match d with
    | [(_, inst), (_, pc), (_, rs1), (_, rs2), (_, rd)] =>
      match smtCall A inst (wordOf 32 pc) (wordOf 32 rs1) (wordOf 32 rs2) (wordOf 32 rd) with
      | .ok (p, r) => ([.bits (BV.ofNat 32 p.toNat), .bits (BV.ofNat 32 r.toNat)], [])
      | .error _ => ([], [])
    | _ => ([], [])

/-- `ArchMapper(R32I_mappable_fc, family=family).process_ir_instruction(ir_fc)` (peak/mapper/mapper.py:81-147) for an instruction on `n` words: `inst` is `Const` (sim.py:251). -/
def problem (A : Ty → Except Err AsmObj) (opts : Fields) (enc : IEnc) (n : Nat) (f : List Word → Word) : MapPb Nat Nat where
  ir := wordIr 32 n f
  arch := pe A opts
  irConst := []
  archConst := [[0]]
  cons := []
  enc := enc

end Peak.RMM
