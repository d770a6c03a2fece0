import Verif.Model.AddNotPe
import Verif.Spec.Verify
/-!
# What the PE of `test_simple` computes, and which functions it can compute
-/

namespace Peak.ANPe
open Peak Peak.Spec

/-- The PE on raw inputs: the operation 1 adds, every other inverts. -/
def peFn (w : Nat) : Fn Nat := fun r _ => match r with
  | .prod [.prod [.leaf op], .leaf a, .leaf b] => (.prod [.leaf (if op == 1 then BitVec.ofNat w a + .ofNat w b else ~~~ BitVec.ofNat w a).toNat], [])
  | r => (r, [])

/-- The functions of `n` words one instruction computes: the sum of two words, and the complement of one of at most two words. -/
def Fits (w n : Nat) (f : List (BitVec w) → BitVec w) : Prop :=
  n = 1 ∧ (∀ x, f [x] = ~~~ x) ∨ n = 2 ∧ ((∀ x y, f [x, y] = x + y) ∨ (∀ x y, f [x, y] = ~~~ x) ∨ ∀ x y, f [x, y] = ~~~ y)

end Peak.ANPe
