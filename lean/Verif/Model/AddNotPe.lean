import Verif.Model.RegPe
import Verif.Model.WordIr
/-!
# The PE of `test_simple` (`tests/test_aadt_mapping.py:25-57`), for words of any width

The test has words of 8 bits.  The instruction is a product whose only field is the operation.
-/

namespace Peak.ANPe
open Peak

/-- `Inst.Op` (tests/test_aadt_mapping.py:43-45): `add` and `not_`. -/
def opT : Ty := .enum 91 [.lit 1, .lit 2]

/-- `Inst` (tests/test_aadt_mapping.py:42-45). -/
def instT : Ty := .prod 92 (.cons 0 opT .nil)

/-- The inputs `inst`, `a`, `b` and the output (tests/test_aadt_mapping.py:49). -/
def peIn (w : Nat) : Fields := .cons 0 instT (.cons 1 (.bv 0 w) (.cons 2 (.bv 0 w) .nil))
def peOut (w : Nat) : Fields := .cons 0 (.bv 0 w) .nil

/-- `__call__` (tests/test_aadt_mapping.py:49-53).  `family.assemble` turns the `if` into a choice between the values of both branches (ast_tools, not modelled); `==` is that of the assembled enum. -/
def peCall (w : Nat) (A : Ty → Except Err AsmObj) : List (Key × AV) → Except Err (List AV)
  | [(_, inst), (_, a), (_, b)] => do
    let add ← (← inst.get A 0) |> RPe.isMem A (.lit 1)
    .ok [.bits (BV.ofNat w (if add then wordOf w a + wordOf w b else ~~~ wordOf w a).toNat)]
  | _ => .error .typeError

/-- The PE (tests/test_aadt_mapping.py:47-54).  An error is modelled by an output of the wrong shape, which the mapper rejects. -/
def pe (w : Nat) (A : Ty → Except Err AsmObj) : PeakObj Nat Nat where
  inT := .prod 93 (peIn w)
  outT := .prod 94 (peOut w)
  bbs := []
  bbOutW := fun _ => [1]
  run := fun d _ => match peCall w A d with
    | .ok l => (l, [])
    | .error _ => ([], [])

/-- `ArchMapper(arch_fc).process_ir_instruction(ir_fc, simple_formula)` (tests/test_aadt_mapping.py:56-57), where `inst` is `Const` (49) and the IR instruction returns a function of `n` words
(28-36). -/
def problem (w : Nat) (A : Ty → Except Err AsmObj) (enc : IEnc) (n : Nat) (f : List (BitVec w) → BitVec w) : MapPb Nat Nat where
  ir := wordIr w n f
  arch := pe w A
  irConst := []
  archConst := [[0]]
  cons := []
  enc := enc

end Peak.ANPe
