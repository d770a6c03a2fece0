import Verif.Model.RiscVAsm
import Verif.Spec.RiscV
/-!
# What the assembler helpers promise
-/

namespace Peak.RV

/-- Which fields an instruction has, and which bits of the value are stored: the lowest one and their number.  Upper immediates hold bits
12 to 31, branch and jump offsets are even. -/
def Inst.range : Inst → Fld → Option (Nat × Nat)
  | .OP _ _, .rs1 | .OP _ _, .rs2 | .OP _ _, .rd => some (0, 5)
  | .OP_IMM _, .rs1 | .OP_IMM _, .rd => some (0, 5)
  | .OP_IMM (.arith _ _), .imm => some (0, 12)
  | .OP_IMM (.shift _ _), .imm => some (0, 5)
  | .LUI _, .rd | .AUIPC _, .rd => some (0, 5)
  | .LUI _, .imm | .AUIPC _, .imm => some (12, 20)
  | .JAL _, .rd => some (0, 5)
  | .JAL _, .imm => some (1, 20)
  | .JALR _, .rs1 | .JALR _, .rd => some (0, 5)
  | .JALR _, .imm => some (0, 12)
  | .Branch _ _, .rs1 | .Branch _ _, .rs2 => some (0, 5)
  | .Branch _ _, .imm => some (1, 12)
  | .Load _ _, .rs1 | .Load _ _, .rd => some (0, 5)
  | .Load _ _, .imm => some (0, 12)
  | .Store _ _, .rs1 | .Store _ _, .rs2 => some (0, 5)
  | .Store _ _, .imm => some (0, 12)
  | _, _ => none

/-- A value that a field storing `n` bits from bit `lo` can hold exactly. -/
def Storable (lo n : Nat) (v : Int) : Prop := 0 ≤ v ∧ (2 ^ lo : Int) ∣ v ∧ v < 2 ^ (lo + n)

/-- The requested values all fit. -/
def Fits (inst : Inst) (vals : FieldVals Int) : Prop :=
  ∀ f v, vals.get f = some v → ∃ lo n, inst.range f = some (lo, n) ∧ Storable lo n v

/-- The instruction with all fields zero: what `set_fields` must not touch. -/
def Inst.erase : Inst → Inst
  | .OP _ t => .OP ⟨0, 0, 0⟩ t
  | .OP_IMM (.arith _ t) => .OP_IMM (.arith ⟨0, 0, 0⟩ t)
  | .OP_IMM (.shift _ t) => .OP_IMM (.shift ⟨0, 0, 0⟩ t)
  | .LUI _ => .LUI ⟨0, 0⟩
  | .AUIPC _ => .AUIPC ⟨0, 0⟩
  | .JAL _ => .JAL ⟨0, 0⟩
  | .JALR _ => .JALR ⟨0, 0, 0⟩
  | .Branch _ t => .Branch ⟨0, 0, 0⟩ t
  | .Load _ t => .Load ⟨0, 0, 0⟩ t
  | .Store _ t => .Store ⟨0, 0, 0⟩ t

/-- The two's complement reading of the unsigned `n`-bit value `v`. -/
def signed (n : Nat) (v : Int) : Int := if v < 2 ^ (n - 1) then v else v - 2 ^ n

/-- The effect of an instruction whose immediate is `v`, from the manual: what is written to the destination register and where execution
goes on; `none` for loads and stores, which the example does not execute. -/
def immEffect (x : Idx → Word) (pc : Word) (v : Int) : Inst → Option (Word × Word)
  | .OP_IMM (.arith d t) => some (isaAlu (.arith t) (x d.rs1) (BitVec.ofInt 32 (signed 12 v)), BitVec.ofInt 32 (pc.toNat + 4))
  | .OP_IMM (.shift d t) => some (isaAlu (.shift t) (x d.rs1) (BitVec.ofInt 32 v), BitVec.ofInt 32 (pc.toNat + 4))
  | .LUI _ => some (BitVec.ofInt 32 v, BitVec.ofInt 32 (pc.toNat + 4))
  | .AUIPC _ => some (BitVec.ofInt 32 (pc.toNat + v), BitVec.ofInt 32 (pc.toNat + 4))
  | .JAL _ => some (BitVec.ofInt 32 (pc.toNat + 4), BitVec.ofInt 32 (pc.toNat + signed 21 v))
  | .Branch d t =>
    some (0, BitVec.ofInt 32 (pc.toNat + if isaTaken t (x d.rs1) (x d.rs2) then signed 13 v else 4))
  | _ => none

end Peak.RV
