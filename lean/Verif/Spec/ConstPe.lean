import Verif.Model.ConstPe
import Verif.Spec.Verify
/-!
# What the PE of `test_const` computes, and which functions it can compute
-/

namespace Peak.CPe
open Peak Peak.Spec

/-- The PE on raw inputs: `op` is the code of the operation, `c` the immediate. -/
def peFn (w : Nat) : Fn Nat := fun r _ => match r with
  | .prod [.prod [.leaf op, .leaf c], .leaf a, .leaf b] =>
    (.prod [.leaf (if op == 1 then BitVec.ofNat w a + BitVec.ofNat w b else BitVec.ofNat w c).toNat], [])
  | r => (r, [])

/-- The data inputs. -/
def dIn (w : Nat) : Fields := .cons 1 (.bv 0 w) (.cons 2 (.bv 0 w) .nil)

/-- The operation `op` is allowed by the constraints. -/
def MayBe (cons : List (RPath × List Nat)) (op : Nat) : Prop := ∀ cs, ([0, 0], cs) ∈ cons → ∃ m ∈ cs, m % 4 = op

/-- The functions of a constant and of `n - 1` words that the PE can compute: the constant itself, if there are at most two other words, and the sum of the two other words.  The constant goes into
the immediate, which must not be constrained. -/
def Fits {w : Nat} (cons : List (RPath × List Nat)) (n : Nat) (f : List (BitVec w) → BitVec w) : Prop :=
  (∀ cs, ([0, 1], cs) ∉ cons) ∧
    ((MayBe cons 2 ∧ n ≤ 3 ∧ ∀ xs, xs.length = n → f xs = xs[0]?.getD 0) ∨ (MayBe cons 1 ∧ n = 3 ∧ ∀ xs, xs.length = n → f xs = xs[1]?.getD 0 + xs[2]?.getD 0))

/-- Constraints on the operation or the immediate, each with some values. -/
def ConsOk (cons : List (RPath × List Nat)) : Prop := (∀ p cs, (p, cs) ∈ cons → cs ≠ [] ∧ (p = [0, 0] ∨ p = [0, 1])) ∧ (cons.map (·.1)).Nodup

end Peak.CPe
