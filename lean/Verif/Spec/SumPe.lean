import Verif.Model.SumPe
import Verif.Spec.Verify
/-!
# What the PEs of `examples/sum_pe` and `examples/tagged_pe` and the instructions of `SmallIR` compute
-/

namespace Peak.SPe
open Peak Peak.Spec

/-- The word a PE returns: with an arithmetic instruction the sum or the difference and an offset, with a bitwise one the conjunction or the disjunction, negated
or not. -/
def word (arith opA neg : Bool) (off x y : BitVec 8) : BitVec 8 :=
  if arith then (if opA then x + y + off else x - y + off)
  else if neg then ~~~(if opA then x &&& y else x ||| y) else (if opA then x &&& y else x ||| y)

/-- The PE on raw inputs: `op` is the code of the operation, `c` the offset or the negation flag. -/
def peFn : Fn Nat := fun r _ => match r with
  | .prod [.sum k (.prod [.leaf op, .leaf c]), .leaf a, .leaf b, .leaf _, .leaf d] =>
    (.prod [.leaf (word (k == kArith) (op == 1) (c != 0) (.ofNat 8 c) (.ofNat 8 a) (.ofNat 8 b)).toNat, .leaf d], [])
  | r => (r, [])

/-- An IR instruction on raw inputs. -/
def irFn (op : Op) : Fn Nat := fun r _ => match r with
  | .prod [.leaf x] => (.prod [.leaf (op.fn (.ofNat 8 x) 0).toNat], [])
  | .prod [.leaf x, .leaf y] => (.prod [.leaf (op.fn (.ofNat 8 x) (.ofNat 8 y)).toNat], [])
  | r => (r, [])

/-- The instructions a rule is expected for (tests/test_aadt_mapping.py:58). -/
def expectFound : List Op := [.add, .sub, .and, .nand, .or, .nor]

end Peak.SPe
