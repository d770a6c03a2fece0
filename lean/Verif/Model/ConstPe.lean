import Verif.Model.SumPe
import Verif.Model.WordIr
/-!
# The PE of `test_const` and `test_const_tuple` (`tests/test_aadt_mapping.py:222-307`), for words of any width, and the early-out tests (310-371)

The tests have words of 16 bits.  The instruction has an operation and an immediate; the IR instruction has a `Const` input.
-/

namespace Peak.CPe
open Peak

/-- `Inst` (tests/test_aadt_mapping.py:240-245, 284-289): `op` is 0 and `imm` is 1.  `Op` has the members 1 and 2, as in `examples/sum_pe`; the first is `add`. -/
def instT (w : Nat) : Ty := .prod 3 (.cons 0 SPe.opT (.cons 1 (.bv 0 w) .nil))

/-- The inputs `inst`, `in0`, `in1` (tests/test_aadt_mapping.py:250, 293). -/
def peIn (w : Nat) : Fields := .cons 0 (instT w) (.cons 1 (.bv 0 w) (.cons 2 (.bv 0 w) .nil))

/-- The output (tests/test_aadt_mapping.py:249, 293). -/
def peOut (w : Nat) : Fields := .cons 0 (.bv 0 w) .nil

/-- `__call__` (tests/test_aadt_mapping.py:250-254, 293-297).  `family.assemble` turns the `if` into a choice between the values of both branches (ast_tools, not
modelled); `==` is that of the assembled enum. -/
def peCall (w : Nat) (A : Ty → Except Err AsmObj) : List (Key × AV) → Except Err (List AV)
  | [(_, inst), (_, in0), (_, in1)] => do
    let add ← (← inst.get A 0) |> SPe.isA A
    let imm ← inst.get A 1
    .ok [.bits (BV.ofNat w (if add then wordOf w in0 + wordOf w in1 else wordOf w imm).toNat)]
  | _ => .error .typeError

/-- The PE (tests/test_aadt_mapping.py:237-255, 281-298).  An error is modelled by an output of the wrong shape, which the mapper rejects. -/
def pe (w : Nat) (A : Ty → Except Err AsmObj) : PeakObj Nat Nat where
  inT := .prod 6 (peIn w)
  outT := .prod 7 (peOut w)
  bbs := []
  bbOutW := fun _ => [1]
  run := fun d _ => match peCall w A d with
    | .ok l => (l, [])
    | .error _ => ([], [])

/-- `ArchMapper(arch_fc, IVar=IVar, path_constraints=cons).process_ir_instruction(ir_fc)` (tests/test_aadt_mapping.py:257-262), where `inst` is `Const` (250) and the IR instruction returns a
function of `n` words of which the first is `Const` (229-232). -/
def problem (w : Nat) (A : Ty → Except Err AsmObj) (enc : IEnc) (cons : List (RPath × List Nat)) (n : Nat) (f : List (BitVec w) → BitVec w) : MapPb Nat Nat where
  ir := wordIr w n f
  arch := pe w A
  irConst := [[1]]
  archConst := [[0]]
  cons := cons
  enc := enc

end Peak.CPe

namespace Peak.EO
open Peak

/-- The architecture of `test_early_out_outputs` (tests/test_aadt_mapping.py:353-361): the lowest bit of the word; `w` is 16 there. -/
def lowBit (w : Nat) : PeakObj Nat Nat where
  inT := .prod 8 (wordFields w 1 1)
  outT := .prod 9 (.cons 0 (.bit 0) .nil)
  bbs := []
  bbOutW := fun _ => [1]
  run := fun d _ => ([.bit (((d.map (fun kv : Key × AV => wordOf w kv.2))[0]?.getD 0).getLsbD 0)], [])

/-- `ArchMapper(arch_fc).process_ir_instruction(ir_fc)` of `test_early_out_inputs` (tests/test_aadt_mapping.py:310-336), for words of any width and any functions on them: the IR instruction has a `Const` input,
the architecture has inputs that are not `Const`. -/
def inputsPb (w : Nat) (enc : IEnc) (n : Nat) (f : List (BitVec w) → BitVec w) (m : Nat) (g : List (BitVec w) → BitVec w) : MapPb Nat Nat :=
  ⟨wordIr w n f, wordIr w m g, [[1]], [], [], enc⟩

/-- `test_early_out_outputs` (tests/test_aadt_mapping.py:342-368). -/
def outputsPb (w : Nat) (enc : IEnc) (f : List (BitVec w) → BitVec w) : MapPb Nat Nat := ⟨wordIr w 1 f, lowBit w, [], [], [], enc⟩

end Peak.EO
