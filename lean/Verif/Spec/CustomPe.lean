import Verif.Model.CustomPe
import Verif.Spec.Verify
/-!
# What the PE of `test_custom_rr` computes, and which functions it can compute
-/

namespace Peak.CuPe
open Peak Peak.Spec

/-- The result: the sum if the operation is 1, the difference otherwise; inverted if the bit is not set. -/
def result {w : Nat} (add sel : Bool) (x y : BitVec w) : BitVec w :=
  match add, sel with
  | true, true => x + y
  | true, false => ~~~ (x + y)
  | false, true => x - y
  | false, false => ~~~ (x - y)

/-- The PE on raw inputs. -/
def peFn (w : Nat) : Fn Nat := fun r _ => match r with
  | .prod [.prod [.leaf op, .leaf sel], .leaf a, .leaf b] =>
    let v := (result (op == 1) (sel.testBit 0) (BitVec.ofNat w a) (.ofNat w b)).toNat
    (.prod [.leaf v, .leaf v], [])
  | r => (r, [])

/-- The functions of `n` words one instruction computes: the sum and the differences of two words, and their complements. -/
def Fits (w n : Nat) (f : List (BitVec w) → BitVec w) : Prop :=
  n = 2 ∧ ((∀ x y, f [x, y] = x + y) ∨ (∀ x y, f [x, y] = ~~~ (x + y)) ∨ (∀ x y, f [x, y] = x - y) ∨ (∀ x y, f [x, y] = ~~~ (x - y)) ∨
    (∀ x y, f [x, y] = y - x) ∨ ∀ x y, f [x, y] = ~~~ (y - x))

end Peak.CuPe
