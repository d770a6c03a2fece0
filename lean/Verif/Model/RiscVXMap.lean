import Verif.Model.RiscVMMap
import Verif.Model.RiscVExt
/-!
# `R32I_mappable_fc.SMT` of examples/riscv_ext as an architecture of the mapper

The files isa.py, sim.py, util.py and family.py cited here are those of examples/riscv_ext.  Its namespace of types is that of examples/riscv (isa.py:14) with `E`, `BitInst`, `Ext` and another `Inst`, so
that the layouts and enums are those of `Model/RiscVMap.lean`.  As in examples/riscv_m, `pc` and `pc_next` are plain words.
-/

namespace Peak.RXM
open Peak
open Peak.RV (Word SmtRF smtFile BitInst ExtInst CntSt popcnt lzStep tzStep extCall)
open Peak.RPe (isMem idxOf)
open Peak.RMap (kRd kData kTag oOP oIMM oLUI oAUIPC oJAL oJALR oBranch oLoad oStore bvVal Dec decOP decImm decLUI decAUIPC decJAL decJALR decBranch decMem execArith alu)

/-- `rs`: isa.py:18. -/
def kRs : Key := 6

/-- The option `Ext`: isa.py:36. -/
def oExt : Key := 9

/-- `BitInst` (isa.py:20-23): all members are `Enum.Auto()`. -/
def bitT : Ty := .enum 77 [.auto 70, .auto 71, .auto 72]

/-- `E` (isa.py:16-18). -/
def eT : Ty := .prod 78 (.cons kRd (.bv 0 5) (.cons kRs (.bv 0 5) .nil))

/-- `Ext` (isa.py:26-28). -/
def extT : Ty := .prod 79 (.cons kData eT (.cons kTag bitT .nil))

/-- The options of `Inst` with their types (isa.py:36). -/
def options : List (Key × Ty) := RMap.options ++ [(oExt, extT)]

/-- `Inst` (isa.py:36), with its options in any order (see `RMap.instT`). -/
def instT (opts : Fields) : Ty := .sum 73 opts

/-! ## instructions as values -/

/-- The members of `BitInst`: isa.py:20-23. -/
def bitMem : BitInst → EVal
  | .POPCNT => .auto 70
  | .CNTLZ => .auto 71
  | .CNTTZ => .auto 72

/-- An instruction as a value of the type `Inst` (isa.py:14-36). -/
def instVal : ExtInst → Val
  | .base i => RMap.instVal i
  | .Ext rd rs tag => .sum oExt (.prod [.prod [bvVal rd, bvVal rs], .enum (bitMem tag)])

/-- `R32I_mappable.__call__` in the SMT family on an instruction that is not assembled (sim.py:295-307 with 35-226): `pc_next` and `rd`. -/
def mappableX (inst : ExtInst) (pc rs1 rs2 rd : Word) : Except Err (Word × Word) := do
  let (s, pcNext) ← extCall smtFile false ⟨rs1, rs2, rd⟩ inst pc
  pure (pcNext, s.rd)

/-! ## the simulator -/

/-- The branches `CNTLZ` and `CNTTZ` (sim.py:243-259, 260-277).  `loop_unroll` unrolls the loop (family.py:9-13); the assertion is dropped. -/
def count (step : CntSt → CntSt) (val : Word) : Word :=
  if val == 0 then 32
  else ((List.range (bitLength 32 - 1)).foldl (fun s _ => step s) ⟨BitVec.ofInt 32 (-1), 16, 0, val⟩).cnt

/-- `BitCounter.__call__` in the SMT family (sim.py:237-277): all branches are evaluated, then one is chosen. -/
def bitCount (A : Ty → Except Err AsmObj) (inst : AV) (val : Word) : Except Err Word := do
  let isPop ← isMem A (.auto 70) inst
  let isLz ← isMem A (.auto 71) inst
  .ok (if isPop then popcnt val else if isLz then count lzStep val else count tzStep val)

/-- sim.py:154-161 -/
def decExt (A : Ty → Except Err AsmObj) (s : SmtRF) (x : AV) : Except Err Dec := do
  let data ← x.get A kData
  let val ← smtFile.load1 s (← (← data.get A kRs) |> idxOf)
  let rd ← (← data.get A kRd) |> idxOf
  let a ← bitCount A (← x.get A kTag) val
  let exec ← execArith A (.auto 10)
  .ok { a := a, b := 0, exec := exec, rd := rd }

/-- Decode (sim.py:45-161).  The branches of the base instructions (55-153) are the text of examples/riscv/sim.py:51-150, and `ExecInst` (26) is that of its line 25. -/
def decode (A : Ty → Except Err AsmObj) (s : SmtRF) (pc : Word) (inst : AV) : Except Err Dec := do
  let op ← inst.getOption A oOP
  let dOP ← decOP A s op.2
  let imm ← inst.getOption A oIMM
  let dIMM ← decImm A s imm.2
  let lui ← inst.getOption A oLUI
  let dLUI ← decLUI A lui.2
  let auipc ← inst.getOption A oAUIPC
  let dAUIPC ← decAUIPC A pc auipc.2
  let jal ← inst.getOption A oJAL
  let dJAL ← decJAL A pc jal.2
  let jalr ← inst.getOption A oJALR
  let dJALR ← decJALR A s jalr.2
  let br ← inst.getOption A oBranch
  let dBranch ← decBranch A s br.2
  let ld ← inst.getOption A oLoad
  let dLoad ← decMem A
  let st ← inst.getOption A oStore
  let dStore ← decMem A
  let ext ← inst.getOption A oExt
  let dExt ← decExt A s ext.2
  .ok (if op.1 then dOP else if imm.1 then dIMM else if lui.1 then dLUI else if auipc.1 then dAUIPC else if jal.1 then dJAL
    else if jalr.1 then dJALR else if br.1 then dBranch else if ld.1 then dLoad else if st.1 then dStore else dExt)

/-- `R32I_mappable.__call__` in the SMT family (sim.py:295-307 with 35-226): `pc_next` and `rd`.  The ALU (169-195) is the text of examples/riscv/sim.py:158-184. -/
def smtCall (A : Ty → Except Err AsmObj) (inst : AV) (pc rs1 rs2 rd : Word) : Except Err (Word × Word) := do
  let s : SmtRF := ⟨rs1, rs2, rd⟩                                         -- 303-305
  let d ← decode A s pc inst
  let branchTarget := pc + d.branchOffset                                 -- 168
  let c0 ← alu A d.exec d.a d.b
  let c := c0 &&& d.lsbMask                                               -- 197
  let pcNext := pc + 4                                                    -- 206
  let cond := if d.cmpZero then c == 0 else c.getLsbD 0                   -- 209-212
  let cond := cond ^^ d.invert                                            -- 214
  let out := if d.isBranch then 0 else if d.isJump then pcNext else c     -- 208, 219, 222
  let pcNext := if d.isBranch then (if cond then branchTarget else pcNext) else if d.isJump then c else pcNext   -- 215-220
  let s' := smtFile.store s d.rd out                                      -- 225
  .ok (pcNext, s'.rd)

/-- The inputs but `inst`: `pc`, `rs1`, `rs2`, `rd` (sim.py:297-300).  Here `pc` is a plain `Word`, and only `Initial(Word)` is another type (util.py:3). -/
def dIn : Fields := .cons 1 (.bv 0 32) (.cons 2 (.bv 0 32) (.cons 3 (.bv 0 32) (.cons 4 (.bv 1 32) .nil)))

/-- The outputs `pc_next` and `rd`, both a `Word` (sim.py:294). -/
def dOut : Fields := .cons 0 (.bv 0 32) (.cons 1 (.bv 0 32) .nil)

/-- `R32I_mappable_fc.SMT` (sim.py:282-318).  An error is modelled by an output of the wrong shape, which the mapper rejects. -/
def pe (A : Ty → Except Err AsmObj) (opts : Fields) : PeakObj Nat Nat where
  inT := .prod 74 (.cons 0 (instT opts) dIn)
  outT := .prod 75 dOut
  bbs := []
  bbOutW := fun _ => [1]
  run := fun d _ => match d with
    | [(_, inst), (_, pc), (_, rs1), (_, rs2), (_, rd)] =>
      match smtCall A inst (wordOf 32 pc) (wordOf 32 rs1) (wordOf 32 rs2) (wordOf 32 rd) with
      | .ok (p, r) => ([.bits (BV.ofNat 32 p.toNat), .bits (BV.ofNat 32 r.toNat)], [])
      | .error _ => ([], [])
    | _ => ([], [])

/-- `ArchMapper(R32I_mappable_fc, family=family).process_ir_instruction(ir_fc)` (peak/mapper/mapper.py:81-147) for an instruction on `n` words: `inst` is `Const` (sim.py:296). -/
def problem (A : Ty → Except Err AsmObj) (opts : Fields) (enc : IEnc) (n : Nat) (f : List Word → Word) : MapPb Nat Nat where
  ir := wordIr 32 n f
  arch := pe A opts
  irConst := []
  archConst := [[0]]
  cons := []
  enc := enc

end Peak.RXM
