import Verif.Spec.SumPe
import Verif.Model.WordIr
/-!
# `path_constraints` on the instruction of `examples/sum_pe` and `examples/tagged_pe`

A constraint is a path, `inst`, an option and the place in its tuple, with the allowed values there.
-/

namespace Peak.SPe
open Peak

/-- `ArchMapper(arch_fc, path_constraints=cons).process_ir_instruction(ir_fc)` (tests/test_aadt_mapping.py:374-378), for an IR instruction on `n` words. -/
def consProblem (A : Ty → Except Err AsmObj) (tagged : Bool) (enc : IEnc) (n : Nat) (f : List (BitVec 8) → BitVec 8) (cons : List (RPath × List Nat)) : MapPb Nat Nat where
  ir := wordIr 8 n f
  arch := pe A tagged
  irConst := []
  archConst := [[0]]
  cons := cons
  enc := enc

/-- The constraints are on places of the instruction, at most one on each, and each allows some value. -/
def ConsOk (cons : List (RPath × List Nat)) : Prop :=
  (∀ p cs, (p, cs) ∈ cons → cs ≠ [] ∧ ∃ k i, (k = kArith ∨ k = kBit) ∧ (i = 0 ∨ i = 1) ∧ p = [0, k, i]) ∧ (cons.map (·.1)).Nodup

/-- An instruction: the option, the operation (1 for `A`, 2 for `B`), and the offset or the flag. -/
def IsInst (k : Key) (op c : Nat) : Prop := (op = 1 ∨ op = 2) ∧ (k = kArith ∧ c < 256 ∨ k = kBit ∧ c < 2)

/-- The operation and the offset or flag of an instruction with the option `k` are allowed values: of 2 bits, and of 8 bits or 1. -/
def Meets (cons : List (RPath × List Nat)) (k : Key) (op c : Nat) : Prop :=
  (∀ cs, ([0, k, 0], cs) ∈ cons → ∃ v ∈ cs, op = v % 4) ∧ ∀ cs, ([0, k, 1], cs) ∈ cons → ∃ v ∈ cs, c = v % (if k = kArith then 256 else 2)

/-- Some instruction that meets the constraints computes `f` from two of its two or three words. -/
def Fits (cons : List (RPath × List Nat)) (n : Nat) (f : List (BitVec 8) → BitVec 8) : Prop :=
  (n = 2 ∨ n = 3) ∧ ∃ k op c, IsInst k op c ∧ Meets cons k op c ∧ ∃ i j, i < n ∧ j < n ∧ i ≠ j ∧
    ∀ xs : List (BitVec 8), xs.length = n → f xs = word (k == kArith) (op == 1) (c != 0) (.ofNat 8 c) (xs[i]?.getD 0) (xs[j]?.getD 0)

end Peak.SPe
