import Verif.Model.RiscVAsmX
import Verif.Spec.RiscVAsm
import Verif.Spec.RiscVM
/-!
# What the assembler helpers of the two other RISC-V examples promise
-/

namespace Peak.RV

/-- The fields of an instruction of `riscv_m`: a multiplication or division names three registers. -/
def InstM.range : InstM → Fld → Option (Nat × Nat)
  | .base i, f => i.range f
  | .muldiv _ _, .rs1 | .muldiv _ _, .rs2 | .muldiv _ _, .rd => some (0, 5)
  | .muldiv _ _, .imm => none

/-- The requested values all fit. -/
def FitsM (inst : InstM) (vals : FieldVals Int) : Prop :=
  ∀ f v, vals.get f = some v → ∃ lo n, inst.range f = some (lo, n) ∧ Storable lo n v

/-- The instruction with all fields zero: what `set_fields` must not touch. -/
def InstM.erase : InstM → InstM
  | .base i => .base i.erase
  | .muldiv _ t => .muldiv ⟨0, 0, 0⟩ t

end Peak.RV
