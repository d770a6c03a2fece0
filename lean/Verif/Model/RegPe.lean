import Verif.Model.WordIr
import Verif.Model.RiscV
/-!
# `examples/reg_file`: a PE on a register file, in Python and mappable

`isa.py`, `sim.py`, run as in `tests/test_reg_pe.py`; the register files are those of `examples/riscv/family.py` (Model/RiscV.lean).
-/

namespace Peak.RPe
open Peak
open Peak.RV (Word Idx RegFile PyRF SmtRF pyFile smtFile)

/-- `BOp` (isa.py:16-18). -/
inductive BOp | add | nor
  deriving DecidableEq

/-- `UOp` (isa.py:20-22). -/
inductive UOp | inv | mov
  deriving DecidableEq

/-- `Inst`: `b` holds a `BLayout`, `u` a `ULayout` (isa.py:24-37). -/
inductive Inst
  | b (op : BOp) (rs1 rs2 rd : Idx)
  | u (op : UOp) (rs1 rd : Idx)

/-- `RegPE.__call__` (sim.py:17-38).  The asserts (26, 35) hold of an `Enum` with two members. -/
def call {σ : Type} (F : RegFile σ) (s : σ) : Inst → Except Err σ
  | .b op rs1 rs2 rd => do                                    -- 18
    let a ← F.load1 s rs1                                     -- 20
    let b ← F.load2 s rs2                                     -- 21
    let c := match op with                                    -- 23-27
      | .add => a + b
      | .nor => ~~~(a ||| b)
    pure (F.store s rd c)                                     -- 38
  | .u op rs1 rd => do                                        -- 28
    let a ← F.load1 s rs1                                     -- 30
    let c := match op with                                    -- 32-36
      | .inv => ~~~a
      | .mov => a
    pure (F.store s rd c)                                     -- 38

/-- `RegPE_fc.Py` called with one instruction after the other on the same object; an exception ends it (examples/reg_file/sim.py:17-38). -/
def pyRun : PyRF → List Inst → Except Err PyRF
  | rf, [] => .ok rf
  | rf, i :: is => do
    let rf' ← call pyFile rf i
    pyRun rf' is

/-- The register file filled as in test_py (tests/test_reg_pe.py:33-35): `store(i, v i)` for each index in turn. -/
def fill (v : Idx → Word) : List Idx → PyRF
  | [] => RV.pyInit
  | i :: is => pyFile.store (fill v is) i (v i)

/-! ## the mappable PE on assembled instructions -/

/-- `BOp`: two `Enum.Auto()` members (isa.py:16-18). -/
def bopT : Ty := .enum 20 [.auto 0, .auto 1]

/-- `UOp` (isa.py:20-22). -/
def uopT : Ty := .enum 21 [.auto 2, .auto 3]

/-- `BLayout`: `op`, `rs1`, `rs2`, `rd` (isa.py:24-28). -/
def bT : Ty := .prod 22 (.cons 0 bopT (.cons 1 (.bv 0 5) (.cons 2 (.bv 0 5) (.cons 3 (.bv 0 5) .nil))))

/-- `ULayout`: `op`, `rs1`, `rd` (isa.py:30-33). -/
def uT : Ty := .prod 23 (.cons 0 uopT (.cons 1 (.bv 0 5) (.cons 3 (.bv 0 5) .nil)))

/-- `Inst`: a `TaggedUnion` of `b` and `u` (isa.py:35-37). -/
def instT : Ty := .sum 24 (.cons 0 bT (.cons 1 uT .nil))

/-- An index as a value (`Idx`, examples/reg_file/isa.py:14). -/
def idxVal (i : Idx) : Val := .bits (BV.ofNat 5 i.toNat)

/-- The members of the enums (examples/reg_file/isa.py:16-18). -/
def BOp.mem : BOp → EVal
  | .add => .auto 0
  | .nor => .auto 1
/-- The members of `UOp` (examples/reg_file/isa.py:20-22). -/
def UOp.mem : UOp → EVal
  | .inv => .auto 2
  | .mov => .auto 3

/-- An instruction as a value of the type `Inst` (the table `ASM`, tests/test_reg_pe.py:18-23). -/
def Inst.val : Inst → Val
  | .b op rs1 rs2 rd => .sum 0 (.prod [.enum op.mem, idxVal rs1, idxVal rs2, idxVal rd])
  | .u op rs1 rd => .sum 1 (.prod [.enum op.mem, idxVal rs1, idxVal rd])

/-- `x == E.m` for an assembled enum (examples/reg_file/sim.py:23, 32; assembled_adt.py:304-314). -/
def isMem (A : Ty → Except Err AsmObj) (m : EVal) : AV → Except Err Bool
  | .adt t b =>
    match AV.eq A t b (.raw (.enum m)) with
    | .error e => .error e
    | .ok (some r) => .ok r
    | .ok none => .ok false
  | _ => .error .typeError

/-- An index (examples/reg_file/isa.py:26-33). -/
def idxOf : AV → Except Err Idx
  | .bits b => .ok (.ofNat 5 b.val)
  | _ => .error .typeError

/-- `RegPE_mappable.__call__` in the SMT family (sim.py:56-67) on the assembled instruction `inst`, under an assignment of the variables.  The register file is set to the inputs (63-65),
the PE is called (66) and `rd` is returned (67).  `family.assemble` turns the `if` statements of the PE into choices between the values of both branches and drops the asserts
(ast_tools, not modelled), so both options of the instruction are read. -/
def smtCall (A : Ty → Except Err AsmObj) (inst : AV) (rs1 rs2 rd : Word) : Except Err Word := do
  let s : SmtRF := ⟨rs1, rs2, rd⟩
  let b ← inst.getOption A 0                                  -- 18-19
  let a0 ← smtFile.load1 s (← (← b.2.get A 1) |> idxOf)       -- 20
  let b0 ← smtFile.load2 s (← (← b.2.get A 2) |> idxOf)       -- 21
  let rd0 ← (← b.2.get A 3) |> idxOf                          -- 22
  let isAdd ← (← b.2.get A 0) |> isMem A BOp.add.mem          -- 23
  let c0 := if isAdd then a0 + b0 else ~~~(a0 ||| b0)         -- 24-27
  let u ← inst.getOption A 1                                  -- 29
  let a1 ← smtFile.load1 s (← (← u.2.get A 1) |> idxOf)       -- 30
  let rd1 ← (← u.2.get A 3) |> idxOf                          -- 31
  let isInv ← (← u.2.get A 0) |> isMem A UOp.inv.mem          -- 32
  let c1 := if isInv then ~~~a1 else a1                       -- 33-36
  let s' := smtFile.store s (if b.1 then rd0 else rd1) (if b.1 then c0 else c1)   -- 38
  .ok s'.rd

/-- The inputs of the mappable PE but `inst`: `rs1`, `rs2` and `rd` (sim.py:58-60).  `Initial(Word)` is another type than `Word`: `create_bindings` compares types with their modifiers
(peak/mapper/mapper.py:72-86, 171-178), so the class is another. -/
def dIn : Fields := .cons 1 (.bv 0 32) (.cons 2 (.bv 0 32) (.cons 3 (.bv 1 32) .nil))

/-- The output `rd` (sim.py:55). -/
def dOut : Fields := .cons 0 (.bv 0 32) .nil

/-- `RegPE_mappable_fc.SMT` (sim.py:43-78).  An error is modelled by an output of the wrong shape, which the mapper rejects. -/
def pe (A : Ty → Except Err AsmObj) : PeakObj Nat Nat where
  inT := .prod 25 (.cons 0 instT dIn)
  outT := .prod 26 dOut
  bbs := []
  bbOutW := fun _ => [1]
  run := fun d _ => match d with
    | [(_, inst), (_, rs1), (_, rs2), (_, rd)] =>
      match smtCall A inst (wordOf 32 rs1) (wordOf 32 rs2) (wordOf 32 rd) with
      | .ok w => ([.bits (BV.ofNat 32 w.toNat)], [])
      | .error _ => ([], [])
    | _ => ([], [])

/-- `ArchMapper(RegPE_mappable_fc, family=family).process_ir_instruction(ir_fc)` for an instruction on `n` words: `inst` is `Const` (sim.py:57). -/
def problem (A : Ty → Except Err AsmObj) (enc : IEnc) (n : Nat) (f : List Word → Word) : MapPb Nat Nat where
  ir := wordIr 32 n f
  arch := pe A
  irConst := []
  archConst := [[0]]
  cons := []
  enc := enc

end Peak.RPe
