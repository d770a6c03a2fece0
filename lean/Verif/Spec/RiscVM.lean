import Verif.Spec.RiscV
import Verif.Model.RiscVM
/-!
# What the RISC-V manual says (M extension, RV32)
-/

namespace Peak.RV

/-- Multiplication: the low word, or the high word of the product of the signed or unsigned values.  Division: rounded towards zero; a divisor 0 gives
the quotient -1 (all bits set) and the dividend as remainder; -2^31 / -1 overflows: quotient -2^31, remainder 0. -/
def isaMulDiv (t : MulDivInst) (a b : Word) : Word :=
  match t with
  | .MUL => BitVec.ofNat 32 (a.toNat * b.toNat)
  | .MULH => BitVec.ofInt 32 (a.toInt * b.toInt / 2 ^ 32)
  | .MULHU => BitVec.ofNat 32 (a.toNat * b.toNat / 2 ^ 32)
  | .MULHSU => BitVec.ofInt 32 (a.toInt * b.toNat / 2 ^ 32)
  | .DIV =>
    if b.toInt = 0 then BitVec.ofInt 32 (-1)
    else if a.toInt = -2 ^ 31 ∧ b.toInt = -1 then BitVec.ofInt 32 (-2 ^ 31)
    else BitVec.ofInt 32 (a.toInt.tdiv b.toInt)
  | .DIVU => if b.toNat = 0 then BitVec.ofNat 32 (2 ^ 32 - 1) else BitVec.ofNat 32 (a.toNat / b.toNat)
  | .REM =>
    if b.toInt = 0 then a
    else if a.toInt = -2 ^ 31 ∧ b.toInt = -1 then 0
    else BitVec.ofInt 32 (a.toInt.tmod b.toInt)
  | .REMU => if b.toNat = 0 then a else BitVec.ofNat 32 (a.toNat % b.toNat)

def InstM.dest : InstM → Option Idx
  | .base i => i.dest
  | .muldiv d _ => some d.rd

def InstM.sources : InstM → List Idx
  | .base i => i.sources
  | .muldiv d _ => [d.rs1, d.rs2]

def isaStepM (m : Mach) : InstM → Mach
  | .base i => isaStep m i
  | .muldiv d t =>
    { x := fun i => if i = d.rd ∧ i ≠ 0 then isaMulDiv t (m.x d.rs1) (m.x d.rs2) else m.x i
      pc := BitVec.ofNat 32 (m.pc.toNat + 4) }

def isaRunM (prog : Word → InstM) : Nat → Mach → Mach
  | 0, m => m
  | n + 1, m => isaRunM prog n (isaStepM m (prog m.pc))

end Peak.RV
