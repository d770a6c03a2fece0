import Verif.Model.RegPe
import Verif.Model.WordIr
/-!
# The architecture of `tests/test_basic_rr.py`

Words have 8 bits and register indices 2.  The instruction is a tagged union of a register-register and a register-immediate format.
-/

namespace Peak.BPe
open Peak

/-- A word (tests/test_basic_rr.py:7). -/
abbrev Word := BitVec 8

/-- `Ridx` and `Word` as types (tests/test_basic_rr.py:6-7). -/
def idxT : Ty := .bv 0 2
def wordT : Ty := .bv 0 8

/-- `RRInst.OP` (tests/test_basic_rr.py:9-11): `add` and `mul`. -/
def rrOpT : Ty := .enum 81 [.lit 1, .lit 2]
/-- `RIInst.OP` (tests/test_basic_rr.py:17-19): `ld_imm` and `add`. -/
def riOpT : Ty := .enum 82 [.lit 3, .lit 4]

/-- `RRInst` (tests/test_basic_rr.py:8-14): `OP`, `rs0`, `rs1`, `rd`. -/
def rrT : Ty := .prod 83 (.cons 0 rrOpT (.cons 1 idxT (.cons 2 idxT (.cons 3 idxT .nil))))

/-- `RIInst` (tests/test_basic_rr.py:16-23): `OP`, `rs`, `rd`, `imm0`, `imm1`. -/
def riT : Ty := .prod 84 (.cons 0 riOpT (.cons 1 idxT (.cons 2 idxT (.cons 3 wordT (.cons 4 wordT .nil)))))

/-- The options of `Inst` (tests/test_basic_rr.py:25-27), in the order of their names: `RI` is 0 and `RR` is 1. -/
def opts : Fields := .cons 0 riT (.cons 1 rrT .nil)
def instT : Ty := .sum 85 opts

/-- The inputs `inst`, `r0`, `r1` and the two outputs (tests/test_basic_rr.py:33). -/
def peIn : Fields := .cons 0 instT (.cons 1 wordT (.cons 2 wordT .nil))
def peOut : Fields := .cons 0 wordT (.cons 1 wordT .nil)

/-- `__call__` (tests/test_basic_rr.py:33-46).  `family.assemble` turns the `if`s into choices between the values of both branches (ast_tools, not modelled), so both options of the instruction are
read; `==` is that of the assembled enum. -/
def peCall (A : Ty → Except Err AsmObj) : List (Key × AV) → Except Err (List AV)
  | [(_, inst), (_, r0), (_, r1)] => do
    let rr ← inst.getOption A 1
    let mul ← (← rr.2.get A 0) |> RPe.isMem A (.lit 2)
    let ri ← inst.getOption A 0
    let imm ← ri.2.get A 4
    let ld ← (← ri.2.get A 0) |> RPe.isMem A (.lit 3)
    let a := wordOf 8 r0
    let b := wordOf 8 r1
    let out := if rr.1 then (if mul then a * b else a + b) else (if ld then wordOf 8 imm else a + wordOf 8 imm)
    .ok [.bits (BV.ofNat 8 out.toNat), .bits (BV.ofNat 8 a.toNat)]
  | _ => .error .typeError

/-- The architecture (tests/test_basic_rr.py:29-47).  An error is modelled by an output of the wrong shape, which the mapper rejects. -/
def pe (A : Ty → Except Err AsmObj) : PeakObj Nat Nat where
  inT := .prod 86 peIn
  outT := .prod 87 peOut
  bbs := []
  bbOutW := fun _ => [1]
  run := fun d _ => match peCall A d with
    | .ok l => (l, [])
    | .error _ => ([], [])

/-- `ArchMapper(arch_fc).process_ir_instruction(ir_fc)` (tests/test_basic_rr.py:81-82), where `inst` is `Const` (33) and the IR instruction returns a function of `n` words (52-74); if `const`, the first
of them is `Const` (73).  With `enc` the index variables are `Binary` or `OneHot`. -/
def problem (A : Ty → Except Err AsmObj) (enc : IEnc) (const : Bool) (n : Nat) (f : List Word → Word) : MapPb Nat Nat where
  ir := wordIr 8 n f
  arch := pe A
  irConst := if const then [[1]] else []
  archConst := [[0]]
  cons := []
  enc := enc

end Peak.BPe
