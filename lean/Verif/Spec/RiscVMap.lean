import Verif.Model.RiscVMap
/-!
# The functions of words a single RV32I instruction of `examples/riscv` computes
-/

namespace Peak.RMap
open Peak.RV (Word AluInst)

/-- What an operation computes.  Shifts are by the whole second operand. -/
def result : AluInst → Word → Word → Word
  | .arith .ADD, a, b => BitVec.ofNat 32 (a.toNat + b.toNat)
  | .arith .SUB, a, b => BitVec.ofInt 32 (a.toNat - b.toNat)
  | .arith .SLT, a, b => if a.toInt < b.toInt then 1 else 0
  | .arith .SLTU, a, b => if a.toNat < b.toNat then 1 else 0
  | .arith .AND, a, b => a &&& b
  | .arith .OR, a, b => a ||| b
  | .arith .XOR, a, b => a ^^^ b
  | .shift .SLL, a, b => BitVec.ofNat 32 (a.toNat * 2 ^ b.toNat)
  | .shift .SRL, a, b => BitVec.ofNat 32 (a.toNat / 2 ^ b.toNat)
  | .shift .SRA, a, b => BitVec.ofInt 32 (a.toInt / 2 ^ b.toNat)

/-- An operand: register 0, an input, or an immediate. -/
inductive Operand
  | zero
  | input (i : Nat)
  | imm12 (v : BitVec 12)
  | imm5 (v : BitVec 5)

/-- Its value; 12-bit immediates are signed. -/
def Operand.val (xs : List Word) : Operand → Word
  | .zero => 0
  | .input i => xs[i]?.getD 0
  | .imm12 v => BitVec.ofInt 32 v.toInt
  | .imm5 v => BitVec.ofNat 32 v.toNat

/-- Some instruction has these operands: the first is a register, the second a register or an immediate, of 12 bits for arithmetic and of 5 for shifts; an input is in one register only. -/
def Encodable (n : Nat) (op : AluInst) (a b : Operand) : Prop :=
  (a = .zero ∨ ∃ i, i < n ∧ a = .input i) ∧
  (b = .zero ∨ (∃ j, j < n ∧ b = .input j ∧ a ≠ .input j) ∨ (∃ v t, b = .imm12 v ∧ op = .arith t) ∨ ∃ v t, b = .imm5 v ∧ op = .shift t)

/-- A function of `n` words, at most two, that one instruction computes: an operation, or a constant whose low 12 bits are 0. -/
def Fits (n : Nat) (f : List Word → Word) : Prop :=
  n ≤ 2 ∧ ((∃ op a b, Encodable n op a b ∧ ∀ xs, xs.length = n → f xs = result op (a.val xs) (b.val xs)) ∨
    ∃ v : BitVec 20, ∀ xs, xs.length = n → f xs = BitVec.ofNat 32 (v.toNat * 4096))

end Peak.RMap
