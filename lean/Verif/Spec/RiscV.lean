import Verif.Model.RiscV
/-!
# What the RISC-V manual says (RV32I, volume I, chapter 2)

Only the instruction type is taken from the model; results are stated with integer arithmetic.  `toNat` is the unsigned and `toInt`
the two's complement value of a word; `ofNat 32`/`ofInt 32` reduce modulo `2^32`.
-/

namespace Peak.RV

/-- The destination register named by an instruction that writes one.  Loads are listed as writing none: the example has no
memory, and property C43 says that its loads change no register. -/
def Inst.dest : Inst → Option Idx
  | .OP d _ => some d.rd
  | .OP_IMM (.arith d _) => some d.rd
  | .OP_IMM (.shift d _) => some d.rd
  | .LUI d => some d.rd
  | .AUIPC d => some d.rd
  | .JAL d => some d.rd
  | .JALR d => some d.rd
  | .Branch _ _ | .Load _ _ | .Store _ _ => none

/-- The registers whose values an instruction depends on. -/
def Inst.sources : Inst → List Idx
  | .OP d _ => [d.rs1, d.rs2]
  | .OP_IMM (.arith d _) => [d.rs1]
  | .OP_IMM (.shift d _) => [d.rs1]
  | .LUI _ | .AUIPC _ | .JAL _ => []
  | .JALR d => [d.rs1]
  | .Branch d _ => [d.rs1, d.rs2]
  | .Load _ _ | .Store _ _ => []

/-- Integer register-register operations (2.4.2); shifts use the low five bits of the second operand. -/
def isaAlu : AluInst → Word → Word → Word
  | .arith .ADD, a, b => BitVec.ofNat 32 (a.toNat + b.toNat)
  | .arith .SUB, a, b => BitVec.ofInt 32 (a.toNat - b.toNat)
  | .arith .SLT, a, b => if a.toInt < b.toInt then 1 else 0
  | .arith .SLTU, a, b => if a.toNat < b.toNat then 1 else 0
  | .arith .AND, a, b => a &&& b
  | .arith .OR, a, b => a ||| b
  | .arith .XOR, a, b => a ^^^ b
  | .shift .SLL, a, b => BitVec.ofNat 32 (a.toNat * 2 ^ (b.toNat % 32))
  | .shift .SRL, a, b => BitVec.ofNat 32 (a.toNat / 2 ^ (b.toNat % 32))
  | .shift .SRA, a, b => BitVec.ofInt 32 (a.toInt / 2 ^ (b.toNat % 32))

/-- Branch conditions (2.5.2) -/
def isaTaken : BranchInst → Word → Word → Bool
  | .BEQ, a, b => decide (a.toNat = b.toNat)
  | .BNE, a, b => decide (a.toNat ≠ b.toNat)
  | .BLT, a, b => decide (a.toInt < b.toInt)
  | .BLTU, a, b => decide (a.toNat < b.toNat)
  | .BGE, a, b => decide (b.toInt ≤ a.toInt)
  | .BGEU, a, b => decide (b.toNat ≤ a.toNat)

/-- The value an instruction writes to its destination register, from the register values `x` and the address `pc`. -/
def isaResult (x : Idx → Word) (pc : Word) : Inst → Word
  | .OP d t => isaAlu t (x d.rs1) (x d.rs2)
  | .OP_IMM (.arith d t) => isaAlu (.arith t) (x d.rs1) (BitVec.ofInt 32 d.imm.toInt)
  | .OP_IMM (.shift d t) => isaAlu (.shift t) (x d.rs1) (BitVec.ofNat 32 d.imm.toNat)
  | .LUI d => BitVec.ofNat 32 (d.imm.toNat * 4096)
  | .AUIPC d => BitVec.ofNat 32 (pc.toNat + d.imm.toNat * 4096)
  | .JAL _ | .JALR _ => BitVec.ofNat 32 (pc.toNat + 4)
  | .Branch _ _ | .Load _ _ | .Store _ _ => 0

/-- The address of the next instruction: jumps and taken branches are relative to the address of the instruction in units of two
bytes, `JALR` clears the lowest bit of its target. -/
def isaNext (x : Idx → Word) (pc : Word) : Inst → Word
  | .JAL d => BitVec.ofInt 32 (pc.toNat + 2 * d.imm.toInt)
  | .JALR d => BitVec.ofInt 32 (2 * (((BitVec.ofInt 32 ((x d.rs1).toNat + d.imm.toInt)).toNat / 2 : Nat) : Int))
  | .Branch d t =>
    if isaTaken t (x d.rs1) (x d.rs2) then BitVec.ofInt 32 (pc.toNat + 2 * d.imm.toInt) else BitVec.ofNat 32 (pc.toNat + 4)
  | _ => BitVec.ofNat 32 (pc.toNat + 4)

/-- The instruction is one of those the example implements according to the manual: not a load or store (there is no memory), not
the non-existent subtract immediate, and a register shift only by less than 32. -/
def Covered (x : Idx → Word) : Inst → Prop
  | .OP d (.shift _) => (x d.rs2).toNat < 32
  | .OP_IMM (.arith _ t) => t ≠ .SUB
  | .Load _ _ | .Store _ _ => False
  | _ => True

/-- The machine of the manual: all registers have a value, register 0 stays zero. -/
structure Mach where
  x : Idx → Word
  pc : Word

/-- One step of the manual's machine. -/
def isaStep (m : Mach) (inst : Inst) : Mach where
  x := fun i => if inst.dest = some i ∧ i ≠ 0 then isaResult m.x m.pc inst else m.x i
  pc := isaNext m.x m.pc inst

/-- `n` steps of a program. -/
def isaRun (prog : Word → Inst) : Nat → Mach → Mach
  | 0, m => m
  | n + 1, m => isaRun prog n (isaStep m (prog m.pc))

end Peak.RV
