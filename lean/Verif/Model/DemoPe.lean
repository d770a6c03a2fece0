import Verif.Model.PE1
/-!
# The PEs of examples/demo_pes and the ALU of examples/alu

All classes are those of the Python family, where `family.assemble` returns the class itself.
An instruction is modelled as the tuple of its members, so the `else: raise TypeError()` branches, which no member of the Enum classes reaches, do not appear
(for examples/alu, whose test passes a non-member, they do).
-/

namespace Peak.Demo
open Peak.PE1 (Data adc)

/-- `ALU_INST` (pe1/isa.py:5-9, pe2/isa.py:5-9, the same in pe3, pe4, pe5) -/
inductive AluInst | Add | And | Xor | Shft
  deriving DecidableEq

/-- `FLAG_INST` (pe2/isa.py:11-13, the same in pe3, pe4, pe5) -/
inductive FlagInst | C | Z
  deriving DecidableEq

/-- `INVERTER_INST` (pe3/isa.py:15-17, the same in pe4, pe5) -/
inductive InverterInst | Ident | Invert
  deriving DecidableEq

/-- `BIT_CONSTANT` (pe4/isa.py:19-21, the same in pe5); `value` is the value of the member. -/
inductive BitConstant | Zero | One
  deriving DecidableEq

/-- `Bit(inst.BIT.value)` (pe4/sim.py:53, pe5/sim.py:51) -/
def BitConstant.bit : BitConstant → Bool
  | .Zero => false
  | .One => true

/-- `~ft.reduce(operator.or_, res, Bit(0))` (pe1/sim.py:33): `Bit(0) | res[0] | res[1] | …`, inverted. -/
def isZero (res : Data) : Bool := !(((List.range 16).map res.getLsbD).foldl (· || ·) false)

/-- `alu` of pe1, pe2 and pe3 (pe1/sim.py:18-34, pe2/sim.py:18-34, pe3/sim.py:18-34): result, carry, zero. -/
def alu (inst : AluInst) (data0 data1 : Data) (bit0 : Bool) : Data × Bool × Bool :=
  let (res, carry) := match inst with
    | .Add => adc data0 data1 bit0
    | .And => (data0 &&& data1, false)
    | .Xor => (data0 ^^^ data1, false)
    | .Shft => (data0 <<< data1, false)
  (res, carry, isZero res)

/-- `alu` of pe4 (pe4/sim.py:18-35): line 21 replaces the carry. -/
def alu4 (inst : AluInst) (data0 data1 : Data) (bit0 : Bool) : Data × Bool × Bool :=
  let (res, carry) := match inst with
    | .Add => let (res, _) := adc data0 data1 bit0; (res, false)
    | .And => (data0 &&& data1, false)
    | .Xor => (data0 ^^^ data1, false)
    | .Shft => (data0 <<< data1, false)
  (res, carry, isZero res)

/-- `alu` of pe5 (pe5/sim.py:17-33). -/
def alu5 (inst : AluInst) (data0 data1 : Data) (bit0 : Bool) : Data × Bool × Bool :=
  let (res, carry, zero) := match inst with
    | .Add => let (res, carry) := adc data0 data1 bit0; (res, carry, false)
    | .And => (if bit0 then data0 &&& data1 else data0 ||| data1, false, false)
    | .Xor => (data0 ^^^ data1, false, bit0)
    | .Shft => (if bit0 then data0 <<< data1 else data0 >>> data1, false, false)
  (res, carry, zero ^^ isZero res)

/-- `flag_mux` (pe2/sim.py:36-42, pe3/sim.py:36-42, pe4/sim.py:37-43, pe5/sim.py:35-41) -/
def flagMux (inst : FlagInst) (carry zero : Bool) : Bool :=
  match inst with
  | .C => carry
  | .Z => zero

/-- `inverter` (pe3/sim.py:44-50, pe4/sim.py:45-51, pe5/sim.py:43-49) -/
def inverter (inst : InverterInst) (data : Data) : Data :=
  match inst with
  | .Invert => ~~~data
  | .Ident => data

/-- `Alu.__call__` of pe1 (pe1/sim.py:36-41) -/
def pe1 (inst : AluInst) (data0 data1 : Data) : Data × Bool :=
  let (res, _, _) := alu inst data0 data1 false
  (res, false)

/-- `Alu.__call__` of pe2 (pe2/sim.py:44-49) -/
def pe2 (inst : AluInst) (flag : FlagInst) (data0 data1 : Data) : Data × Bool :=
  let (res, carry, zero) := alu inst data0 data1 false
  (res, flagMux flag carry zero)

/-- `Alu.__call__` of pe3 (pe3/sim.py:52-58) -/
def pe3 (inst : AluInst) (flag : FlagInst) (inv : InverterInst) (data0 data1 : Data) : Data × Bool :=
  let data1 := inverter inv data1
  let (res, carry, zero) := alu inst data0 data1 false
  (res, flagMux flag carry zero)

/-- `Alu.__call__` of pe4 (pe4/sim.py:53-59) -/
def pe4 (inst : AluInst) (flag : FlagInst) (inv : InverterInst) (bit : BitConstant) (data0 data1 : Data) : Data × Bool :=
  let bit0 := bit.bit
  let data1 := inverter inv data1
  let (res, carry, zero) := alu4 inst data0 data1 bit0
  (res, flagMux flag carry zero)

/-- `Alu.__call__` of pe5 (pe5/sim.py:51-57) -/
def pe5 (inst : AluInst) (flag : FlagInst) (inv : InverterInst) (bit : BitConstant) (data0 data1 : Data) : Data × Bool :=
  let bit0 := bit.bit
  let data1 := inverter inv data1
  let (res, carry, zero) := alu5 inst data0 data1 bit0
  (res, flagMux flag carry zero)

/-- `ALU.__call__` of pe6 (pe6/alu.py:12-23); `Op` is pe6/isa.py:3-7. Interpreting the words as signed changes none of the four operations. -/
def alu6 (inst : AluInst) (data0 data1 : Data) : Data :=
  if inst = .Add then data0 + data1
  else if inst = .And then data0 &&& data1
  else if inst = .Xor then data0 ^^^ data1
  else data0 <<< data1

/-- `PE.__call__` of pe6 (pe6/sim.py:28-35) -/
def pe6 (op0 op1 : AluInst) (choice : Bool) (data0 data1 : Data) : Data :=
  let data1 := alu6 op1 data0 data1
  let data0 := alu6 op0 data0 data1
  if choice then data1 else data0

/-- `ALUOP` (examples/alu/isa.py:7-12) -/
inductive AluOp | Add | Sub | Or | And | XOr
  deriving DecidableEq

/-- `ALU.__call__` of `gen_alu(family, width)` (examples/alu/sim.py:6-28) on words of any width: `width` is not used. `none` stands for an `alu_op` that is no member. -/
def exAlu {w : Nat} (op : Option AluOp) (a b : BitVec w) : Except Err (BitVec w) :=
  if op = some .Add then .ok (a + b)
  else if op = some .Sub then .ok (a - b)
  else if op = some .And then .ok (a &&& b)
  else if op = some .Or then .ok (a ||| b)
  else if op = some .XOr then .ok (a ^^^ b)
  else .error .notImplementedError

end Peak.Demo
