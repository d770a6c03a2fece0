import Verif.Model.RiscVXMap
import Verif.Spec.RiscVExt
import Verif.Spec.RiscVMMap
/-!
# The functions of words a single instruction of `examples/riscv_ext` computes
-/

namespace Peak.RXM
open Peak.RV (Word AluInst BitInst BranchInst isaTaken ones leading trailing)
open Peak.RMap (Operand)
open Peak.RMM (IsReg)

/-- How many bits are counted. -/
def counted : BitInst → Word → Nat
  | .POPCNT => ones
  | .CNTLZ => leading
  | .CNTTZ => trailing

/-- A function of words, as an instruction computes it.  Inputs are numbered from 0. -/
inductive Shape
  /-- an operation on two operands -/
  | op (o : AluInst) (a b : Operand)
  /-- a number of bits of a register -/
  | count (t : BitInst) (a : Operand)
  /-- a constant with low 12 bits 0 -/
  | upper (v : BitVec 20)
  /-- an address plus such a constant -/
  | pcUpper (i : Nat) (v : BitVec 20)
  /-- the next address -/
  | next (i : Nat)
  /-- an address plus an even signed offset of 21 bits -/
  | jump (i : Nat) (v : BitVec 20)
  /-- a register plus a signed offset of 12 bits, made even -/
  | target (a : Operand) (v : BitVec 12)
  /-- an address plus an even signed offset of 13 bits if a comparison holds, else the next address -/
  | branch (c : BranchInst) (a b : Operand) (i : Nat) (v : BitVec 12)

/-- Some instruction has these operands.  An input is in one place only: the first register, the second register or the program counter. -/
def Shape.Encodable (n : Nat) : Shape → Prop
  | .op o a b => IsReg n a ∧ (b = .zero ∨ (∃ j, j < n ∧ b = .input j ∧ a ≠ .input j) ∨ (∃ v t, b = .imm12 v ∧ o = .arith t) ∨ ∃ v t, b = .imm5 v ∧ o = .shift t)
  | .count _ a => IsReg n a
  | .upper _ => True
  | .pcUpper i _ => i < n
  | .next i => i < n
  | .jump i _ => i < n
  | .target a _ => IsReg n a
  | .branch _ a b i _ => IsReg n a ∧ IsReg n b ∧ i < n ∧ a ≠ .input i ∧ b ≠ .input i ∧ ∀ j, a = .input j → b ≠ .input j

/-- Its value on some words. -/
def Shape.val (xs : List Word) : Shape → Word
  | .op o a b => RMap.result o (a.val xs) (b.val xs)
  | .count t a => BitVec.ofNat 32 (counted t (a.val xs))
  | .upper v => BitVec.ofNat 32 (v.toNat * 4096)
  | .pcUpper i v => BitVec.ofNat 32 ((xs[i]?.getD 0).toNat + v.toNat * 4096)
  | .next i => BitVec.ofNat 32 ((xs[i]?.getD 0).toNat + 4)
  | .jump i v => BitVec.ofInt 32 ((xs[i]?.getD 0).toNat + 2 * v.toInt)
  | .target a v => BitVec.ofNat 32 (2 * ((BitVec.ofInt 32 ((a.val xs).toNat + v.toInt)).toNat / 2))
  | .branch c a b i v =>
    if isaTaken c (a.val xs) (b.val xs) then BitVec.ofInt 32 ((xs[i]?.getD 0).toNat + 2 * v.toInt) else BitVec.ofNat 32 ((xs[i]?.getD 0).toNat + 4)

/-- A function of `n` words, at most three, that one instruction computes. -/
def Fits (n : Nat) (f : List Word → Word) : Prop :=
  n ≤ 3 ∧ ∃ s : Shape, s.Encodable n ∧ ∀ xs, xs.length = n → f xs = s.val xs

end Peak.RXM
