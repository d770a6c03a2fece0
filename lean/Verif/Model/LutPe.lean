import Verif.Model.RegPe
/-!
# `examples/PE_lut`: an ALU beside a lookup table

`isa.py` and `sim.py`, for every data width.  The submodules are called with values (`peak/features.py`); the SMT family reads the fields of an assembled instruction.
-/

namespace Peak.LPe
open Peak

/-- `OP` (isa.py:9-12). -/
inductive Op | imm | add | mux
  deriving DecidableEq

/-- `Inst` with its `AluInst` (isa.py:22-28): the fields `op`, `imm` and `lut`. -/
structure Inst (w : Nat) where
  op : Op
  imm : BitVec w
  lut : BitVec 8

/-- `LUT.__call__` (sim.py:14-17).  `BitVector[3]([b0, b1, b2])` has `b0` as its lowest bit. -/
def lutCall (lut : BitVec 8) (bit0 bit1 bit2 : Bool) : Bool :=
  let i : BitVec 3 := BitVec.ofNat 3 (bit0.toNat + 2 * bit1.toNat + 4 * bit2.toNat)   -- 14
  let i : BitVec 8 := i.setWidth 8                                                    -- 15
  ((lut >>> i) &&& 1)[0]                                                              -- 16

/-- `ALU.__call__` (sim.py:22-33), given the answers of the two comparisons (27, 29).  `Signed` and `BitVector` add alike. -/
def aluCall {w : Nat} (isImm isAdd : Bool) (imm a b : BitVec w) (d : Bool) : BitVec w :=
  if isImm then imm                                           -- 26-27
  else if isAdd then a + b                                    -- 28-29
  else if d then a else b                                     -- 31

/-- `PE.__call__` in Python (sim.py:54-57). -/
def pyCall {w : Nat} (inst : Inst w) (d0 d1 : BitVec w) (b0 b1 b2 : Bool) : BitVec w × Bool :=
  let aluOut := aluCall (inst.op = .imm) (inst.op = .add) inst.imm d0 d1 b0   -- 53
  let lutOut := lutCall inst.lut b0 b1 b2                                     -- 54
  (aluOut, lutOut)                                                            -- 55

/-! ## the PE on assembled instructions -/

/-- `OP` (isa.py:9-12). -/
def opT : Ty := .enum 30 [.lit 1, .lit 2, .lit 6]

/-- `AluInst` (isa.py:22-24). -/
def aluT (w : Nat) : Ty := .prod 31 (.cons 0 opT (.cons 1 (.bv 0 w) .nil))

/-- `Inst` (isa.py:26-28). -/
def instT (w : Nat) : Ty := .prod 32 (.cons 0 (aluT w) (.cons 1 (.bv 0 8) .nil))

/-- The members of `OP` (examples/PE_lut/isa.py:9-12). -/
def Op.mem : Op → EVal
  | .imm => .lit 1
  | .add => .lit 2
  | .mux => .lit 6

/-- An instruction as a value of the type `Inst` (examples/PE_lut/isa.py:22-28). -/
def Inst.val {w : Nat} (i : Inst w) : Val := .prod [.prod [.enum i.op.mem, .bits (BV.ofNat w i.imm.toNat)], .bits (BV.ofNat 8 i.lut.toNat)]

/-- The bit an argument holds (examples/PE_lut/sim.py:54). -/
def bitOf : AV → Bool
  | .bit b => b
  | _ => false

/-- A field that is a vector (examples/PE_lut/isa.py:24, 28). -/
def bvOf (w : Nat) : AV → Except Err (BitVec w)
  | .bits b => .ok (.ofNat w b.val)
  | _ => .error .typeError

/-- `PE.__call__` in the SMT family (sim.py:54-57) on the assembled instruction `inst`, under an assignment of the variables.  `family.assemble` turns the `if` statements of the ALU
into choices between the values of both branches (ast_tools, not modelled), so all fields are read. -/
def smtCall (A : Ty → Except Err AsmObj) (w : Nat) (inst : AV) (d0 d1 : BitVec w) (b0 b1 b2 : Bool) : Except Err (BitVec w × Bool) := do
  let alu ← inst.get A 0                                      -- 53
  let op ← alu.get A 0                                        -- 25
  let isImm ← RPe.isMem A Op.imm.mem op                       -- 26
  let imm ← (← alu.get A 1) |> bvOf w                         -- 27
  let isAdd ← RPe.isMem A Op.add.mem op                       -- 28
  let aluOut := aluCall isImm isAdd imm d0 d1 b0
  let lut ← (← inst.get A 1) |> bvOf 8                        -- 54
  let lutOut := lutCall lut b0 b1 b2
  .ok (aluOut, lutOut)                                        -- 55

/-- The inputs of the PE but `inst`: `d0`, `d1`, `b0`, `b1`, `b2` (sim.py:54). -/
def dIn (w : Nat) : Fields := .cons 1 (.bv 0 w) (.cons 2 (.bv 0 w) (.cons 3 (.bit 0) (.cons 4 (.bit 0) (.cons 5 (.bit 0) .nil))))

/-- The outputs: a word and a bit (sim.py:54). -/
def dOut (w : Nat) : Fields := .cons 0 (.bv 0 w) (.cons 1 (.bit 0) .nil)

/-- `gen_PE(w).SMT` (sim.py:41-60).  An error is modelled by an output of the wrong shape, which the mapper rejects. -/
def pe (A : Ty → Except Err AsmObj) (w : Nat) : PeakObj Nat Nat where
  inT := .prod 33 (.cons 0 (instT w) (dIn w))
  outT := .prod 34 (dOut w)
  bbs := []
  bbOutW := fun _ => [1]
  run := fun d _ => match d with
    | [(_, inst), (_, d0), (_, d1), (_, b0), (_, b1), (_, b2)] =>
      match smtCall A w inst (wordOf w d0) (wordOf w d1) (bitOf b0) (bitOf b1) (bitOf b2) with
      | .ok (x, b) => ([.bits (BV.ofNat w x.toNat), .bit b], [])
      | .error _ => ([], [])
    | _ => ([], [])

/-! ## instructions on words and bits -/

/-- An input interface with `m` bits, named `i`, `i + 1`, … (the `input_interface` of peak/ir.py:22) -/
def bitFields : Nat → Nat → Fields
  | _, 0 => .nil
  | i, m + 1 => .cons i (.bit 0) (bitFields (i + 1) m)

/-- An input interface with `n` words and then `m` bits (the `input_interface` of peak/ir.py:22). -/
def mixFields (w i : Nat) : (n m : Nat) → Fields
  | 0, m => bitFields i m
  | n + 1, m => .cons i (.bv 0 w) (mixFields w (i + 1) n m)

/-- What an instruction returns: a word, a bit, or both (the `output_interface` of peak/ir.py:22). -/
inductive Outs | word | bit | both

/-- The output interface (the `output_interface` of peak/ir.py:22). -/
def Outs.fields (w : Nat) : Outs → Fields
  | .word => .cons 0 (.bv 0 w) .nil
  | .bit => .cons 0 (.bit 0) .nil
  | .both => .cons 0 (.bv 0 w) (.cons 1 (.bit 0) .nil)

/-- The class `IR.add_peak_instruction(name, input_interface, output_interface, fun)` makes (peak/ir.py:22-59) for `n` words and `m` bits (the words first: a simplification). -/
def mixIr (w n m : Nat) (o : Outs) (f : List (BitVec w) → List Bool → BitVec w × Bool) : PeakObj Nat Nat where
  inT := .prod 8 (mixFields w 1 n m)
  outT := .prod 9 (o.fields w)
  bbs := []
  bbOutW := fun _ => [1]
  run := fun d _ =>
    let r := f ((d.take n).map (fun kv => wordOf w kv.2)) ((d.drop n).map (fun kv => bitOf kv.2))
    match o with
    | .word => ([.bits (BV.ofNat w r.1.toNat)], [])
    | .bit => ([.bit r.2], [])
    | .both => ([.bits (BV.ofNat w r.1.toNat), .bit r.2], [])

/-- `ArchMapper(gen_PE(w)).process_ir_instruction(ir_fc)`: `inst` is `Const` (sim.py:54). -/
def problem (A : Ty → Except Err AsmObj) (enc : IEnc) (w n m : Nat) (o : Outs) (f : List (BitVec w) → List Bool → BitVec w × Bool) : MapPb Nat Nat where
  ir := mixIr w n m o f
  arch := pe A w
  irConst := []
  archConst := [[0]]
  cons := []
  enc := enc

end Peak.LPe
