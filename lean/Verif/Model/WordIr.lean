import Verif.Model.IRMapper
/-!
# IR instructions made from a function on words (`peak/ir.py`)
-/

namespace Peak

/-- An input interface with `n` fields of type `BitVector[w]`, named `i`, `i + 1`, … (the `input_interface` of peak/ir.py:22) -/
def wordFields (w : Nat) : Nat → Nat → Fields
  | _, 0 => .nil
  | i, n + 1 => .cons i (.bv 0 w) (wordFields w (i + 1) n)

/-- The word an argument holds (the arguments of ir.py:42-45). -/
def wordOf (w : Nat) : AV → BitVec w
  | .bits b => .ofNat w b.val
  | _ => 0

/-- The class `IR.add_peak_instruction(name, input_interface, output_interface, fun)` makes (peak/ir.py:22-59), for `n` inputs and one output of type `BitVector[w]`: its
`__call__` returns `fun(family, *inputs)` (47-49).  The generated source and `exec` (28-58) are not modelled. -/
def wordIr (w n : Nat) (f : List (BitVec w) → BitVec w) : PeakObj Nat Nat where
  inT := .prod 8 (wordFields w 1 n)
  outT := .prod 9 (.cons 0 (.bv 0 w) .nil)
  bbs := []
  bbOutW := fun _ => [1]
  run := fun d _ => ([.bits (BV.ofNat w (f (d.map (fun kv => wordOf w kv.2))).toNat)], [])

end Peak
