import Verif.Model.FpAddPe
/-!
# What the PE of `test_black_box_rr.test_simple` can compute
-/

namespace Peak.FaPe
open Peak.FPe (Cls)

/-- The instructions the PE can compute: the sum of two words, where a black box, if there is one, does not matter; or what a floating-point adder computes from two words, in either order. -/
def Fits (w n : Nat) (box : Option (Cls × (List (BitVec w) → List (BitVec w)))) (g : List (BitVec w) → BitVec w → BitVec w) : Prop :=
  n = 2 ∧ ((∀ x y v, (box = none → v = 0) → g [x, y] v = x + y) ∨
    ∃ h, box = some (.add, h) ∧ (∀ x y v, g [x, y] v = v) ∧ ((∀ x y, h [x, y] = [x, y]) ∨ ∀ x y, h [x, y] = [y, x]))

/-- The box of the instruction gets as many inputs as its class has. -/
def BoxOk (w n : Nat) (box : Option (Cls × (List (BitVec w) → List (BitVec w)))) : Prop := ∀ k h, box = some (k, h) → ∀ xs, xs.length = n → (h xs).length = k.arity

end Peak.FaPe
