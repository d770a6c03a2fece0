import Verif.Model.PE1
/-!
# The PE of examples/pe

`cond.py`, `lut.py` and `mode.py` of examples/pe have the same code as those of examples/pe1, so the definitions of `Model/PE1.lean` are used:
`Cond`, `cond` (examples/pe/cond.py:4-60), `lut` (examples/pe/lut.py:6-9), `Mode`, `modeCall` (examples/pe/mode.py:8-37).
-/

namespace Peak.XPe
open Peak.PE1 (Data Cond Mode PV ModeArgs modeCall)

/-- The options of `ALU` (examples/pe/isa.py:38-62). -/
inductive Op | Add | Sub | And | Or | XOr
  deriving DecidableEq

/-- `eval` of each option (isa.py:38-60): result, 1-bit result, carry, overflow. -/
def Op.eval (op : Op) (a b : Data) (_bit : Bool) : Data × Bool × Bool × Bool :=
  match op with
  | .Add => (a + b, false, false, false)
  | .Sub => (a - b, false, false, false)
  | .And => (a &&& b, false, false, false)
  | .Or => (a ||| b, false, false, false)
  | .XOr => (a ^^^ b, false, false, false)

/-- `LUT` (isa.py:25-32) -/
structure Lut where
  bit0Mode : Mode
  bit0Const : Bool
  bit1Mode : Mode
  bit1Const : Bool
  bit2Mode : Mode
  bit2Const : Bool
  table : BitVec 8

/-- `Inst` (isa.py:64-67) with the `_ALU` fields (34-36); `NUM_INPUTS` is 2 (10). -/
structure Inst where
  op : Op
  mode0 : Mode
  mode1 : Mode
  const0 : Data
  const1 : Data
  lut : Lut
  cond : Cond

/-- `lut`, `alu`, `inst`, `add`, `sub`, `and_`, `or_`, `xor` (examples/pe/asm.py:8-41) with the default arguments. -/
def asm (op : Op) : Inst := ⟨op, .BYPASS, .BYPASS, 0, 0, ⟨.BYPASS, false, .BYPASS, false, .BYPASS, false, 0⟩, .Z⟩

/-- The registers of a PE (sim.py:13-21). -/
structure St where
  data : List Data
  bit0 : Bool := false
  bit1 : Bool := false
  bit2 : Bool := false

/-- `gen_pe(n)()` (sim.py:13-21) -/
def St.init (n : Nat) : St := ⟨List.replicate n 0, false, false, false⟩

/-- The list comprehension in sim.py:43-45: `data[i]`, `data_modes[i]` or `data_consts[i]` may not exist. -/
def dataRun : List Data → List Mode → List Data → List Data → Bool → Except Err (List Data) × List Data
  | [], _, _, _, _ => (.ok [], [])
  | s :: ss, m :: ms, c :: cs, d :: ds, en =>
    match modeCall s m c d en with
    | (.error e, s') => (.error e, s' :: ss)
    | (.ok x, s') =>
      match dataRun ss ms cs ds en with
      | (.error e, ss') => (.error e, s' :: ss')
      | (.ok xs, ss') => (.ok (x :: xs), s' :: ss')
  | ss, _, _, _, _ => (.error .indexError, ss)

/-- One call (examples/pe/sim.py:23-28). -/
structure In where
  data : List Data
  bit0 : Bool := false
  bit1 : Bool := false
  bit2 : Bool := false
  clkEn : Bool := true

/-- `PE.__call__` (sim.py:23-56) -/
def call (s : St) (inst : Inst) (i : In) : Except Err (Data × PV × Bool) × St :=
  let (r0, s0) := modeCall s.bit0 inst.lut.bit0Mode inst.lut.bit0Const i.bit0 i.clkEn
  let (r1, s1) := modeCall s.bit1 inst.lut.bit1Mode inst.lut.bit1Const i.bit1 i.clkEn
  let (r2, s2) := modeCall s.bit2 inst.lut.bit2Mode inst.lut.bit2Const i.bit2 i.clkEn
  let (rd, sd) := dataRun s.data [inst.mode0, inst.mode1] [inst.const0, inst.const1] i.data i.clkEn
  let out : Except Err (Data × PV × Bool) := do
    let b0 ← r0
    let b1 ← r1
    let b2 ← r2
    let lutRes := PE1.lut inst.lut.table b0 b1 b2
    match ← rd with
    | [a, b] =>
      let (res, _, C, V) := inst.op.eval a b b0
      let Z := res == 0
      let N := res.getLsbD 15
      pure (res, PE1.cond inst.cond (.data res) (.bit lutRes) Z N C V, false)
    | _ => .error .typeError                                          -- eval takes two operands and a bit
  (out, ⟨sd, s0, s1, s2⟩)

/-- A sequence of calls of one PE (examples/pe/sim.py:23-54). -/
def run : List (Inst × In) → St → List (Except Err (Data × PV × Bool)) × St
  | [], s => ([], s)
  | c :: cs, s =>
    let (r, s') := call s c.1 c.2
    let (rs, s'') := run cs s'
    (r :: rs, s'')

end Peak.XPe
