import Verif.Model.RiscVMMap
import Verif.Spec.RiscVM
import Verif.Spec.RiscVMap
/-!
# The functions of words a single instruction of `examples/riscv_m` computes
-/

namespace Peak.RMM
open Peak.RV (Word AluInst MulDivInst BranchInst isaMulDiv isaTaken)
open Peak.RMap (Operand)

/-- An operation on two words. -/
inductive Op
  | alu (op : AluInst)
  | muldiv (op : MulDivInst)

/-- What it computes.  Multiplication and division are those of the manual, but for a negative number divided by 0: SMT-LIB's `bvsdiv` gives 1. -/
def Op.result : Op → Word → Word → Word
  | .alu op, a, b => RMap.result op a b
  | .muldiv .DIV, a, b => if b = 0 ∧ a.toInt < 0 then 1 else isaMulDiv .DIV a b
  | .muldiv op, a, b => isaMulDiv op a b

/-- A function of words, as an instruction computes it.  Inputs are numbered from 0. -/
inductive Shape
  /-- an operation on two operands -/
  | op (o : Op) (a b : Operand)
  /-- a constant with low 12 bits 0 -/
  | upper (v : BitVec 20)
  /-- an address plus such a constant -/
  | pcUpper (i : Nat) (v : BitVec 20)
  /-- the next address -/
  | next (i : Nat)
  /-- an address plus an even signed offset of 21 bits -/
  | jump (i : Nat) (v : BitVec 20)
  /-- a register plus a signed offset of 12 bits, made even -/
  | target (a : Operand) (v : BitVec 12)
  /-- an address plus an even signed offset of 13 bits if a comparison holds, else the next address -/
  | branch (c : BranchInst) (a b : Operand) (i : Nat) (v : BitVec 12)

/-- The operand is a register: register 0 or one that holds an input. -/
def IsReg (n : Nat) (a : Operand) : Prop := a = .zero ∨ ∃ i, i < n ∧ a = .input i

/-- Some instruction has these operands.  An input is in one place only: the first register, the second register or the program counter. -/
def Shape.Encodable (n : Nat) : Shape → Prop
  | .op o a b => IsReg n a ∧ (b = .zero ∨ (∃ j, j < n ∧ b = .input j ∧ a ≠ .input j) ∨ (∃ v t, b = .imm12 v ∧ o = .alu (.arith t)) ∨ ∃ v t, b = .imm5 v ∧ o = .alu (.shift t))
  | .upper _ => True
  | .pcUpper i _ => i < n
  | .next i => i < n
  | .jump i _ => i < n
  | .target a _ => IsReg n a
  | .branch _ a b i _ => IsReg n a ∧ IsReg n b ∧ i < n ∧ a ≠ .input i ∧ b ≠ .input i ∧ ∀ j, a = .input j → b ≠ .input j

/-- Its value on some words. -/
def Shape.val (xs : List Word) : Shape → Word
  | .op o a b => o.result (a.val xs) (b.val xs)
  | .upper v => BitVec.ofNat 32 (v.toNat * 4096)
  | .pcUpper i v => BitVec.ofNat 32 ((xs[i]?.getD 0).toNat + v.toNat * 4096)
  | .next i => BitVec.ofNat 32 ((xs[i]?.getD 0).toNat + 4)
  | .jump i v => BitVec.ofInt 32 ((xs[i]?.getD 0).toNat + 2 * v.toInt)
  | .target a v => BitVec.ofNat 32 (2 * ((BitVec.ofInt 32 ((a.val xs).toNat + v.toInt)).toNat / 2))
  | .branch c a b i v =>
    if isaTaken c (a.val xs) (b.val xs) then BitVec.ofInt 32 ((xs[i]?.getD 0).toNat + 2 * v.toInt) else BitVec.ofNat 32 ((xs[i]?.getD 0).toNat + 4)

/-- A function of `n` words, at most three, that one instruction computes. -/
def Fits (n : Nat) (f : List Word → Word) : Prop :=
  n ≤ 3 ∧ ∃ s : Shape, s.Encodable n ∧ ∀ xs, xs.length = n → f xs = s.val xs

end Peak.RMM
