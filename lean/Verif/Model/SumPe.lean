import Verif.Model.IRMapper
/-!
# `examples/sum_pe`, `examples/tagged_pe` and `examples/smallir`, mapped as in `tests/test_aadt_mapping.py:54-73`

The two PEs differ in the instruction type: a `Sum` of two tuples, or a `TaggedUnion` with the same tuples as options.  Vectors of 8 bits are
computed with as `BitVec 8`, whose operations are those of hwtypes (trusted): wrapping `+`, `-`, `*`, logical shifts by the value of the second operand.
-/

namespace Peak.SPe
open Peak

/-- The names of the options: `isa.BitOp` / `bit` and `isa.ArithOp` / `alu` (examples/sum_pe/isa.py:19, examples/tagged_pe/isa.py:20). -/
def kBit : Key := 0
/-- examples/sum_pe/isa.py:19, examples/tagged_pe/isa.py:21. -/
def kArith : Key := 1

/-- The member `A` of `Op` (sum_pe/isa.py:6-8, tagged_pe/isa.py:6-8). -/
def memA : EVal := .lit 1

/-- `Op` (sum_pe/isa.py:6-8). -/
def opT : Ty := .enum 2 [memA, .lit 2]

/-- `Tuple[Op, Bit]`, where `Bit` is `BitVector[1]` (sum_pe/isa.py:13-15). -/
def bitOpT : Ty := .prod 3 (.cons 0 opT (.cons 1 (.bv 0 1) .nil))

/-- `Tuple[Op, Word]` (sum_pe/isa.py:17). -/
def arithOpT : Ty := .prod 4 (.cons 0 opT (.cons 1 (.bv 0 8) .nil))

/-- `Inst` (sum_pe/isa.py:19; tagged_pe/isa.py:19-21).  Options are listed in the order of their tags, that is sorted by `repr`: `BitVector[1]` before
`BitVector[8]`, `alu` before `bit`. -/
def instT (tagged : Bool) : Ty :=
  if tagged then .sum 5 (.cons kArith arithOpT (.cons kBit bitOpT .nil)) else .sum 5 (.cons kBit bitOpT (.cons kArith arithOpT .nil))

/-- The inputs `inst`, `in0`, `in1`, `in2`, `in3` (sum_pe/sim.py:14). -/
def peIn (tagged : Bool) : Fields :=
  .cons 0 (instT tagged) (.cons 1 (.bv 0 8) (.cons 2 (.bv 0 8) (.cons 3 (.bv 0 8) (.cons 4 (.bit 0) .nil))))

/-- The outputs `out`, `out_bit` (sum_pe/sim.py:13). -/
def peOut : Fields := .cons 0 (.bv 0 8) (.cons 1 (.bv 0 1) .nil)

/-- A vector as a word of 8 bits (`Word`, examples/sum_pe/isa.py:12). -/
def w8 (b : BV) : BitVec 8 := BitVec.ofNat 8 b.val
/-- A word of 8 bits as an argument (`Word`, examples/sum_pe/isa.py:12). -/
def b8 (x : BitVec 8) : AV := .bits (BV.ofNat 8 x.toNat)

/-- `op == isa.Op.A` (examples/sum_pe/sim.py:20, 31; assembled_adt.py:304-314). -/
def isA (A : Ty → Except Err AsmObj) : AV → Except Err Bool
  | .adt t b =>
    match AV.eq A t b (.raw (.enum memA)) with
    | .error e => .error e
    | .ok (some r) => .ok r
    | .ok none => .ok false
  | _ => .error .typeError

/-- A vector (examples/sum_pe/sim.py:19, 30). -/
def bitsOf : AV → Except Err BV
  | .bits b => .ok b
  | _ => .error .typeError

/-- `__call__` (sum_pe/sim.py:14-36, tagged_pe/sim.py:14-34).  `family.assemble` turns the `if` statements into choices between the values of both branches
(ast_tools, not modelled), so both options of the instruction are read.  `in3` is a bit and `out_bit` a vector of one bit: the constructor of the output type converts
it (hwtypes), which is done here. -/
def peCall (A : Ty → Except Err AsmObj) : List (Key × AV) → Except Err (List AV)
  | [(_, inst), (_, .bits in0), (_, .bits in1), (_, .bits _), (_, .bit in3)] => do
    let arith ← inst.getOption A kArith
    let op ← (← arith.2.get A 0) |> isA A
    let offset ← (← arith.2.get A 1) |> bitsOf
    let bit ← inst.getOption A kBit
    let op' ← (← bit.2.get A 0) |> isA A
    let neg ← (← bit.2.get A 1) |> bitsOf
    let res := if op' then w8 in0 &&& w8 in1 else w8 in0 ||| w8 in1
    let out := if arith.1 then (if op then w8 in0 + w8 in1 + w8 offset else w8 in0 - w8 in1 + w8 offset)
      else (if neg.val ≠ 0 then ~~~res else res)
    .ok [b8 out, .bits (BV.ofNat 1 in3.toNat)]
  | _ => .error .typeError

/-- The PE (sum_pe/sim.py:7-37, tagged_pe/sim.py:7-35).  An error is modelled by an output of the wrong shape, which the mapper rejects. -/
def pe (A : Ty → Except Err AsmObj) (tagged : Bool) : PeakObj Nat Nat where
  inT := .prod 6 (peIn tagged)
  outT := .prod 7 peOut
  bbs := []
  bbOutW := fun _ => [1]
  run := fun d _ => match peCall A d with
    | .ok l => (l, [])
    | .error _ => ([], [])

/-- The instructions of `SmallIR` (smallir/ir.py:18-31). -/
inductive Op
  | add | sub | and | nand | or | nor | mul | shftr | shftl | not | neg
  deriving DecidableEq

/-- Those with one input (smallir/ir.py:30-31). -/
def Op.unary : Op → Bool
  | .not => true
  | .neg => true
  | _ => false

/-- The lambdas of smallir/ir.py:18-31; the second argument of unary instructions is not used. -/
def Op.fn : Op → BitVec 8 → BitVec 8 → BitVec 8
  | .add, x, y => x + y
  | .sub, x, y => x - y
  | .and, x, y => x &&& y
  | .nand, x, y => ~~~(x &&& y)
  | .or, x, y => x ||| y
  | .nor, x, y => ~~~(x ||| y)
  | .mul, x, y => x * y
  | .shftr, x, y => x >>> y.toNat
  | .shftl, x, y => x <<< y.toNat
  | .not, x, _ => ~~~x
  | .neg, x, _ => -x

/-- `UnaryInput`, `BinaryInput` with width 8 (smallir/ir.py:8-16). -/
def irIn (op : Op) : Fields :=
  if op.unary then .cons 1 (.bv 0 8) .nil else .cons 1 (.bv 0 8) (.cons 2 (.bv 0 8) .nil)

/-- The class `add_peak_instruction` makes (peak/ir.py:22-59): its `__call__` returns the lambda's result. -/
def ir (op : Op) : PeakObj Nat Nat where
  inT := .prod 8 (irIn op)
  outT := .prod 9 (.cons 0 (.bv 0 8) .nil)
  bbs := []
  bbOutW := fun _ => [1]
  run := fun d _ => match d with
    | [(_, .bits x)] => ([b8 (op.fn (w8 x) 0)], [])
    | [(_, .bits x), (_, .bits y)] => ([b8 (op.fn (w8 x) (w8 y))], [])
    | _ => ([], [])

/-- `ArchMapper(arch_fc, IVar=IVar).process_ir_instruction(ir_fc)` (tests/test_aadt_mapping.py:57-62): `inst` is `Const` (sum_pe/sim.py:14). -/
def problem (A : Ty → Except Err AsmObj) (tagged : Bool) (enc : IEnc) (op : Op) : MapPb Nat Nat where
  ir := ir op
  arch := pe A tagged
  irConst := []
  archConst := [[0]]
  cons := []
  enc := enc

end Peak.SPe
