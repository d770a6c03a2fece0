import Verif.Model.Arm
/-!
# ARM immediates (ARM Architecture Reference Manual, A5.1.3)
-/

namespace Peak.Arm

/-- The word an immediate operand stands for: the 8 bits, rotated right by twice the 4-bit rotation. -/
def immValue (imm : BitVec 8) (rotate : BitVec 4) : Word := (imm.setWidth 32).rotateRight (2 * rotate.toNat)

/-- Any order of the options. -/
structure Orders.Ok (o : Orders) : Prop where
  operands : o.operands.toList.Perm operandOpts
  datas : o.datas.toList.Perm (dataOpts o)
  ldsts : o.ldsts.toList.Perm (ldstOpts o)
  bases : o.bases.toList.Perm (baseOpts o)

/-- The number of an option: its place in the order. -/
def place (fs : Fields) (k : Key) : Nat := fs.toList.findIdx (fun p => p.1 == k)

/-- The operations in the order they are written (isa.py:89-91). -/
def operations : List DataOp := [.AND, .EOR, .SUB, .RSB, .ADD, .ADC, .SBC, .RSC, .TST, .TEQ, .CMP, .CMN, .ORR, .MOV, .BIC, .MVN]

/-- The conditions in the order of their codes. -/
def conditions : List Cond := [.Z, .Z_n, .C, .C_n, .N, .N_n, .V, .V_n, .UGT, .ULE, .SGE, .SLT, .SGT, .SLE, .Always]

def operandWord (o : Orders) : Operand → Nat
  | .reg rc shift => 2 ^ 33 * (2 * (rc.toNat + 2 ^ 8 * shift.toNat) + place o.operands 0)
  | .imm i rotate => 2 ^ 33 * (2 * (i.toNat + 2 ^ 16 * rotate.toNat) + place o.operands 1)

/-- The word `encode` gives: every field is moved once for its own `bitfield` and once more for its place in the product, so that fields overlap (`|||`). -/
def baseWord (o : Orders) : Base → Nat
  | .data op ra rb rc s =>
    2 ^ 26 * (4 * (2 ^ 21 * (16 * (2 ^ 16 * ra.toNat ||| 2 ^ 16 * rb.toNat ||| operandWord o rc ||| 2 ^ 41 * s.toNat) +
      place o.datas (operations.idxOf op))) + place o.bases 0)
  | .ldst load ra rb rc =>
    2 ^ 26 * (4 * (2 ^ 20 * (2 * (2 ^ 16 * ra.toNat ||| 2 ^ 16 * rb.toNat ||| operandWord o rc) +
      place o.ldsts (if load then 1 else 0))) + place o.bases 1)
  | .b offset l i => 2 ^ 26 * (4 * (offset.toNat + 2 ^ 48 * l.toNat + 2 ^ 50 * i.toNat) + place o.bases 2)

def instWord (o : Orders) (i : Inst) : Nat := baseWord o i.inst ||| 2 ^ 56 * conditions.idxOf i.cond

end Peak.Arm
