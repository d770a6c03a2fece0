import Verif.Model.RegPe
/-!
# What the instructions of `examples/reg_file` compute

On numbers below `2 ^ 32` (the table `GOLDS` of `tests/test_reg_pe.py`).
-/

namespace Peak.RPe
open Peak.RV (Word Idx PyRF)

/-- The result of an instruction, from the numbers in its source registers. -/
def gold : Inst → (Idx → Nat) → Nat
  | .b .add i j _, x => (x i + x j) % 2 ^ 32
  | .b .nor i j _, x => 2 ^ 32 - 1 - (x i ||| x j)
  | .u .inv i _, x => 2 ^ 32 - 1 - x i
  | .u .mov i _, x => x i

/-- The registers an instruction reads, and the one it writes. -/
def Inst.srcs : Inst → List Idx
  | .b _ i j _ => [i, j]
  | .u _ i _ => [i]

def Inst.dst : Inst → Idx
  | .b _ _ _ d => d
  | .u _ _ d => d

/-- One instruction on 32 registers: the destination gets the result, but register 0 is left alone. -/
def goldStep (x : Idx → Nat) (i : Inst) : Idx → Nat := fun k => if k = i.dst ∧ k ≠ 0 then gold i x else x k

/-- The Python register file holds these numbers, and 0 in register 0. -/
def Holds (rf : PyRF) (x : Idx → Nat) : Prop := ∀ k, ∃ w : Word, rf k = some w ∧ w.toNat = x k ∧ (k = 0 → w = 0)

/-- The functions of two words the PE computes. -/
def Binary (g : Word → Word → Word) : Prop :=
  (∀ x y, g x y = x + y) ∨ (∀ x y, g x y = ~~~(x ||| y)) ∨ (∀ x y, g x y = x) ∨ (∀ x y, g x y = y) ∨ (∀ x y, g x y = ~~~x) ∨ (∀ x y, g x y = ~~~y) ∨
  (∀ x y, g x y = 0) ∨ (∀ x y, g x y = ~~~0)

/-- The functions of one word the PE computes. -/
def Unary (g : Word → Word) : Prop := (∀ x, g x = x) ∨ (∀ x, g x = ~~~x) ∨ (∀ x, g x = 0) ∨ (∀ x, g x = ~~~0)

end Peak.RPe
