import Verif.Model.RiscV
/-!
# The RISC-V example with multiplication and division (examples/riscv_m)

`riscv_m/isa.py` adds an option `muldiv` to `AluInst` (isa.py:75-91), which only `OP` can carry; the rest of isa.py, sim.py and family.py are those
of `examples/riscv`.
-/

namespace Peak.RV

/-- isa.py:75-83 -/
inductive MulDivInst | MUL | MULH | MULHU | MULHSU | DIV | DIVU | REM | REMU
  deriving DecidableEq

/-- `Inst` (isa.py:109-172): the instructions of `examples/riscv` and `OP` with a `muldiv` tag. -/
inductive InstM
  | base (i : Inst)
  | muldiv (data : R) (tag : MulDivInst)
  deriving DecidableEq

/-- The signed divisions of the bit-vector library: a parameter, since the Python and the SMT library differ (see `smtOps`, `floorOps`) (used at examples/riscv_m/sim.py:193, 197). -/
structure DivOps where
  bvsdiv : Word → Word → Word
  bvsrem : Word → Word → Word

/-- `bvsdiv` and `bvsrem` of SMT-LIB (used at examples/riscv_m/sim.py:193, 197): truncation; `x / 0` is 1 for negative `x` and -1 otherwise, `x rem 0 = x`. -/
def smtOps : DivOps := ⟨BitVec.smtSDiv, BitVec.srem⟩

/-- Python's `//` and `%` on the signed values (used at examples/riscv_m/sim.py:193, 197), with -1 and `x` for a divisor 0. -/
def floorOps : DivOps where
  bvsdiv a b := if b = 0 then BitVec.ofInt 32 (-1) else BitVec.ofInt 32 (Int.fdiv a.toInt b.toInt)
  bvsrem a b := if b = 0 then a else BitVec.ofInt 32 (Int.fmod a.toInt b.toInt)

/-- `bvudiv` (used at examples/riscv_m/sim.py:195): all ones for a divisor 0 (the same in both libraries). -/
def bvudiv (a b : Word) : Word := if b = 0 then BitVec.allOnes 32 else a / b

/-- `bvurem` (used at examples/riscv_m/sim.py:200): the dividend for a divisor 0. -/
def bvurem (a b : Word) : Word := if b = 0 then a else a % b

/-- `x[Word.size:]` of a 64-bit value (examples/riscv_m/sim.py:187-191). -/
def high (x : BitVec 64) : Word := x.extractLsb' 32 32

/-- sim.py:181-200 -/
def mulDiv (ops : DivOps) (t : MulDivInst) (a b : Word) : Word :=
  match t with
  | .MUL => a * b
  | .MULH => high (sext a 32 * sext b 32)
  | .MULHU => high (zext a 32 * zext b 32)
  | .MULHSU => high (sext a 32 * zext b 32)
  | .DIV => ops.bvsdiv a b
  | .DIVU => bvudiv a b
  | .REM => ops.bvsrem a b
  | .REMU => bvurem a b

/-- `R32I.__call__` (riscv_m/sim.py:29-231): an `OP` with a `muldiv` tag is decoded as any `OP` (46-51), its result is masked with all ones (204),
and there is no jump or branch. -/
def callM {σ : Type} (F : RegFile σ) (asserts : Bool) (ops : DivOps) (s : σ) (inst : InstM) (pc : Word) : Except Err (σ × Word) :=
  match inst with
  | .base i => call F asserts s i pc
  | .muldiv data tag => do
    let a ← F.load1 s data.rs1
    let b ← F.load2 s data.rs2
    let d : Dec := { a := a, b := b, exec := .arith .ADD, rd := data.rd }
    let (out, pcNext) := commit d pc (mulDiv ops tag a b)
    pure (F.store s data.rd out, pcNext)

/-- In the Python family (examples/riscv_m/sim.py:29). -/
def pyCallM (ops : DivOps) (rf : PyRF) (inst : InstM) (pc : Word) : Except Err (PyRF × Word) := callM pyFile true ops rf inst pc

/-- `R32I_mappable.__call__` (riscv_m/sim.py:249-262) -/
def mappableM (ops : DivOps) (inst : InstM) (pc rs1 rs2 rd : Word) : Except Err (Word × Word) := do
  let (s, pcNext) ← callM smtFile false ops ⟨rs1, rs2, rd⟩ inst pc
  pure (pcNext, s.rd)

/-- A program; the caller supplies the instruction at each address (calls of examples/riscv_m/sim.py:29). -/
def pyRunM (ops : DivOps) (prog : Word → InstM) : Nat → PyRF → Word → Except Err (PyRF × Word)
  | 0, rf, pc => .ok (rf, pc)
  | n + 1, rf, pc => do
    let (rf', pc') ← pyCallM ops rf (prog pc) pc
    pyRunM ops prog n rf' pc'

end Peak.RV
