import Verif.Model.RegPe
import Verif.Model.WordIr
import Verif.Model.LutPe
import Verif.Model.RewriteRule
/-!
# The PE of `test_custom_rr` (`tests/test_aadt_mapping.py:149-217`), for words of any width

The test has words of 16 bits.  The instruction has an operation and a bit that says whether the result is inverted; both outputs are the result.
-/

namespace Peak.CuPe
open Peak

/-- `Inst.Op` (tests/test_aadt_mapping.py:167-169): `add` and `sub`. -/
def opT : Ty := .enum 95 [.lit 1, .lit 2]

/-- `Inst` (tests/test_aadt_mapping.py:166-170): `Op` and `sel`. -/
def instT : Ty := .prod 96 (.cons 0 opT (.cons 1 (.bit 0) .nil))

/-- The inputs `inst`, `a`, `b` and the two outputs (tests/test_aadt_mapping.py:173). -/
def peIn (w : Nat) : Fields := .cons 0 instT (.cons 1 (.bv 0 w) (.cons 2 (.bv 0 w) .nil))
def peOut (w : Nat) : Fields := .cons 0 (.bv 0 w) (.cons 1 (.bv 0 w) .nil)

/-- `__call__` (tests/test_aadt_mapping.py:173-181).  `family.assemble` turns each `if` into a choice between the values of both branches (ast_tools, not modelled); `==` is that of the assembled
enum. -/
def peCall (w : Nat) (A : Ty → Except Err AsmObj) : List (Key × AV) → Except Err (List AV)
  | [(_, inst), (_, a), (_, b)] => do
    let add ← (← inst.get A 0) |> RPe.isMem A (.lit 1)                                            -- 174
    let ret := if add then wordOf w a + wordOf w b else wordOf w a - wordOf w b                   -- 175-177
    let sel ← inst.get A 1                                                                        -- 178
    let r := if LPe.bitOf sel then ret else ~~~ ret                                               -- 179-181
    .ok [.bits (BV.ofNat w r.toNat), .bits (BV.ofNat w r.toNat)]
  | _ => .error .typeError

/-- The PE (tests/test_aadt_mapping.py:171-182).  An error is modelled by an output of the wrong shape, which the mapper rejects. -/
def pe (w : Nat) (A : Ty → Except Err AsmObj) : PeakObj Nat Nat where
  inT := .prod 97 (peIn w)
  outT := .prod 98 (peOut w)
  bbs := []
  bbOutW := fun _ => [1]
  run := fun d _ => match peCall w A d with
    | .ok l => (l, [])
    | .error _ => ([], [])

/-- The rules of the test (tests/test_aadt_mapping.py:190-199, 203-209), with the code of any operation, any `sel`, and either output.  The IR inputs are `in0` (1) and `in1` (2), which go to `a` and `b`,
or the other way round. -/
def rule (op : Nat) (sel swap : Bool) (out : Key) : RRule where
  ib := [(.path [if swap then 2 else 1], [1]), (.path [if swap then 1 else 2], [2]), (.const (.bits (BV.ofNat 2 op)), [0, 0]), (.const (.bit sel), [0, 1])]
  ob := [(some [0], [out])]

/-- `ArchMapper(arch_fc).process_ir_instruction(ir_fc, simple_formula)` for this PE, where `inst` is `Const` (tests/test_aadt_mapping.py:173) and the IR instruction returns a function of `n` words
(152-160). -/
def problem (w : Nat) (A : Ty → Except Err AsmObj) (enc : IEnc) (n : Nat) (f : List (BitVec w) → BitVec w) : MapPb Nat Nat where
  ir := wordIr w n f
  arch := pe w A
  irConst := []
  archConst := [[0]]
  cons := []
  enc := enc

end Peak.CuPe
