import Verif.Model.WordIr
import Verif.Model.RegPe
/-!
# `examples/fp_pe`: a PE with floating-point units, which are black boxes

`sim.py`, as an architecture of the mapper, for `tests/test_black_box_rr.py`.  Only the SMT family: the mapper sees nothing else.
-/

namespace Peak.FPe
open Peak
open Peak.RPe (isMem)

/-- `Data` (sim.py:8). -/
abbrev Word := BitVec 16

/-- Classes of black boxes: `Add`, `Mul` and `Sqrt` of `float_lib_gen(7, 8).const_rm(RDN)` (sim.py:15-21; peak/float.py, `const_rm` with `gen_const_rm_unary`, `gen_const_rm_binary`), and others on words, the
one with number `id` having `n + 1` inputs.  `float_lib_gen` and `const_rm` are cached, so that the class in the PE and that of an IR instruction are the same object. -/
inductive Cls
  | add
  | mul
  | sqrt
  | other (id n : Nat)
  deriving DecidableEq

/-- The number of inputs: `in0`, `in1` or `in_` (peak/float.py:121-225). -/
def Cls.arity : Cls → Nat
  | .add => 2
  | .mul => 2
  | .sqrt => 1
  | .other _ n => n + 1

/-- `ALU_op` (sim.py:43-48). -/
def aluT : Ty := .enum 40 [.lit 1, .lit 2, .lit 3, .lit 4, .lit 5]

/-- `FPU_op` (sim.py:10-13). -/
def fpuT : Ty := .enum 41 [.lit 0, .lit 2, .lit 3]

/-- `Op`: a `TaggedUnion` of `alu` and `fpu` (sim.py:70-72). -/
def opT : Ty := .sum 42 (.cons 0 aluT (.cons 1 fpuT .nil))

/-- `Inst`: `op`, `imm`, `use_imm` (sim.py:74-77). -/
def instT : Ty := .prod 43 (.cons 0 opT (.cons 1 (.bv 0 16) (.cons 2 (.bit 0) .nil)))

/-- A bit (the argument of examples/fp_pe/sim.py:91). -/
def bitVal : AV → Except Err Bool
  | .bit b => .ok b
  | _ => .error .typeError

/-- A word (the arguments of examples/fp_pe/sim.py:90). -/
def wordVal : AV → Except Err Word
  | .bits b => .ok (.ofNat 16 b.val)
  | _ => .error .typeError

/-- `ALU.__call__` (sim.py:55-66). -/
def alu (A : Ty → Except Err AsmObj) (op : AV) (a b : Word) : Except Err Word := do
  let isAdd ← isMem A (.lit 1) op                             -- 56
  let isSub ← isMem A (.lit 2) op                             -- 58
  let isAnd ← isMem A (.lit 4) op                             -- 60
  let isOr ← isMem A (.lit 3) op                              -- 62
  .ok (if isAdd then a + b
    else if isSub then a - b
    else if isAnd then a &&& b
    else if isOr then a ||| b
    else a ^^^ b)                                             -- 64-66

/-- `FPU.__call__` (sim.py:30-39): the outputs of the three boxes are given. -/
def fpu (A : Ty → Except Err AsmObj) (op : AV) (add mul sqrt : Word) : Except Err Word := do
  let isAdd ← isMem A (.lit 0) op                             -- 34
  let isMul ← isMem A (.lit 2) op                             -- 36
  .ok (if isAdd then add else if isMul then mul else sqrt)    -- 34-39

/-- `PE.__call__` in the SMT family (sim.py:90-99) on an assembled instruction, under an assignment of the variables, with the outputs of the black boxes; the result, and `b` after line 92. -/
def smtCall (A : Ty → Except Err AsmObj) (inst : AV) (a b add mul sqrt : Word) : Except Err (Word × Word) := do
  let useImm ← (← inst.get A 2) |> bitVal                     -- 91
  let imm ← (← inst.get A 1) |> wordVal
  let b := if useImm then imm else b                          -- 92
  let op ← inst.get A 0
  let aluO ← op.getOption A 0                                 -- 93
  let aluOut ← alu A aluO.2 a b
  let fpuO ← op.getOption A 1                                 -- 94
  let fpuOut ← fpu A fpuO.2 add mul sqrt
  .ok (if aluO.1 then aluOut else fpuOut, b)                  -- 95-99

/-- What the box at `path` was set to return.  The mapper sets the outputs of all boxes before it calls the object (`create_and_set_bb_outputs`, peak/mapper/mapper.py:89-102); the value where it
has not, where the call raises (peak/black_box.py:46-47), does not matter. -/
def boxOut (bb : List (Nat × List BV)) (path : Nat) : Word :=
  match bb.lookup path with
  | some [b] => .ofNat 16 b.val
  | _ => 0

/-- A word as a bit vector of the model (hwtypes; `Data`, examples/fp_pe/sim.py:8). -/
def toBV (w : Word) : BV := BV.ofNat 16 w.toNat

/-- The inputs `a` and `b` (sim.py:90). -/
def dIn : Fields := .cons 1 (.bv 0 16) (.cons 2 (.bv 0 16) .nil)

/-- The output (examples/fp_pe/sim.py:90). -/
def dOut : Fields := .cons 0 (.bv 0 16) .nil

/-- `PE_fc.SMT` (sim.py:79-101).  The black boxes are at the paths `FPU.add`, `FPU.mul` and `FPU.sqrt`, in the order of `get_black_boxes` (peak/black_box.py:3-18), here numbered 1, 2, 3.  An error is
modelled by an output of the wrong shape. -/
def pe (A : Ty → Except Err AsmObj) : PeakObj Nat Cls where
  inT := .prod 44 (.cons 0 instT dIn)
  outT := .prod 45 dOut
  bbs := [(1, .add), (2, .mul), (3, .sqrt)]
  bbOutW := fun _ => [16]
  run := fun d bb => match d with
    | [(_, inst), (_, a), (_, b)] =>
      let a := wordOf 16 a
      match smtCall A inst a (wordOf 16 b) (boxOut bb 1) (boxOut bb 2) (boxOut bb 3) with
      | .ok (r, b) => ([.bits (toBV r)], [(1, [toBV a, toBV b]), (2, [toBV a, toBV b]), (3, [toBV a])])   -- 31-33
      | .error _ => ([], [])
    | _ => ([], [])

/-- An IR instruction on `n` words with at most one black box: a box of class `k` is called on `h xs`, and the result is `g xs y`, where `y` is the output of the box, or 0 if there is none.  An instruction
made by `add_peak_instruction` (peak/ir.py:22-59) has no box.  A class like `fplib.Add_fc` is a box itself (`get_black_boxes`, peak/black_box.py:12-13: the path is `()`, here 0): `h xs = xs` and `g xs y = y`. -/
def boxIr (n : Nat) (box : Option (Cls × (List Word → List Word))) (g : List Word → Word → Word) : PeakObj Nat Cls where
  inT := .prod 8 (wordFields 16 1 n)
  outT := .prod 9 dOut
  bbs := match box with
    | none => []
    | some (k, _) => [(0, k)]
  bbOutW := fun _ => [16]
  run := fun d bb =>
    let xs := d.map (fun kv => wordOf 16 kv.2)
    match box with
    | none => ([.bits (toBV (g xs 0))], [])
    | some (_, h) => ([.bits (toBV (g xs (boxOut bb 0)))], [(0, (h xs).map toBV)])

/-- `ArchMapper(PE_fc).process_ir_instruction(ir_fc, simple_formula=True)` (tests/test_black_box_rr.py:80-83): `inst` is `Const` (sim.py:90). -/
def problem (A : Ty → Except Err AsmObj) (enc : IEnc) (n : Nat) (box : Option (Cls × (List Word → List Word))) (g : List Word → Word → Word) : MapPb Nat Cls where
  ir := boxIr n box g
  arch := pe A
  irConst := []
  archConst := [[0]]
  cons := []
  enc := enc

end Peak.FPe
