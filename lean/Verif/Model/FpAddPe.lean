import Verif.Model.FpPe
import Verif.Model.AddNotPe
/-!
# The PE of `test_simple` in `tests/test_black_box_rr.py:14-65`, for words of any width

The test has words of 8 bits and `float_lib_gen(3, 4)`.  The floating-point adder is a black box.
-/

namespace Peak.FaPe
open Peak
open Peak.FPe (Cls)

/-- `Inst` (tests/test_black_box_rr.py:33-36): a product whose only field is an enum with the members 1 (`add`) and 2 (`fpadd`), as in Model/AddNotPe. -/
abbrev instT : Ty := ANPe.instT

/-- The inputs `a` and `b`, and the output (tests/test_black_box_rr.py:45). -/
def dIn (w : Nat) : Fields := .cons 1 (.bv 0 w) (.cons 2 (.bv 0 w) .nil)
def dOut (w : Nat) : Fields := .cons 0 (.bv 0 w) .nil

/-- A word as a bit vector of the model (hwtypes; `Data`, tests/test_black_box_rr.py:32). -/
def toBV {w : Nat} (x : BitVec w) : BV := BV.ofNat w x.toNat

/-- What the box at `path` was set to return, as `FPe.boxOut` (peak/mapper/mapper.py:89-102, peak/black_box.py:46-47). -/
def boxOut (w : Nat) (bb : List (Nat × List BV)) (path : Nat) : BitVec w :=
  match bb.lookup path with
  | some [b] => .ofNat w b.val
  | _ => 0

/-- `__call__` in the SMT family (tests/test_black_box_rr.py:45-50), with the output of the black box: the call of the box is before the `if`, which `family.assemble` turns into a choice between the values of
both branches (ast_tools, not modelled). -/
def smtCall (w : Nat) (A : Ty → Except Err AsmObj) (inst : AV) (a b fpadd : BitVec w) : Except Err (BitVec w) := do
  let add ← (← inst.get A 0) |> RPe.isMem A (.lit 1)           -- 47
  .ok (if add then a + b else fpadd)                           -- 48-50

/-- The PE (tests/test_black_box_rr.py:40-51).  The black box is at the path `fpadd`, here numbered 1.  An error is modelled by an output of the wrong shape. -/
def pe (w : Nat) (A : Ty → Except Err AsmObj) : PeakObj Nat Cls where
  inT := .prod 99 (.cons 0 instT (dIn w))
  outT := .prod 100 (dOut w)
  bbs := [(1, .add)]
  bbOutW := fun _ => [w]
  run := fun d bb => match d with
    | [(_, inst), (_, a), (_, b)] =>
      match smtCall w A inst (wordOf w a) (wordOf w b) (boxOut w bb 1) with
      | .ok r => ([.bits (toBV r)], [(1, [toBV (wordOf w a), toBV (wordOf w b)])])   -- 46
      | .error _ => ([], [])
    | _ => ([], [])

/-- An IR instruction on `n` words with at most one black box, as `FPe.boxIr` (tests/test_black_box_rr.py:18-26, 55-57; peak/black_box.py:12-13). -/
def boxIr (w n : Nat) (box : Option (Cls × (List (BitVec w) → List (BitVec w)))) (g : List (BitVec w) → BitVec w → BitVec w) : PeakObj Nat Cls where
  inT := .prod 8 (wordFields w 1 n)
  outT := .prod 9 (dOut w)
  bbs := match box with
    | none => []
    | some (k, _) => [(0, k)]
  bbOutW := fun _ => [w]
  run := fun d bb =>
    let xs := d.map (fun kv => wordOf w kv.2)
    match box with
    | none => ([.bits (toBV (g xs 0))], [])
    | some (_, h) => ([.bits (toBV (g xs (boxOut w bb 0)))], [(0, (h xs).map toBV)])

/-- `ArchMapper(arch_fc).process_ir_instruction(ir_fc, simple_formula=True)` (tests/test_black_box_rr.py:53-59): `inst` is `Const` (45). -/
def problem (w : Nat) (A : Ty → Except Err AsmObj) (enc : IEnc) (n : Nat) (box : Option (Cls × (List (BitVec w) → List (BitVec w)))) (g : List (BitVec w) → BitVec w → BitVec w) : MapPb Nat Cls where
  ir := boxIr w n box g
  arch := pe w A
  irConst := []
  archConst := [[0]]
  cons := []
  enc := enc

end Peak.FaPe
